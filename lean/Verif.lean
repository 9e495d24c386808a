import Verif.Sets.Props
import Verif.Sets.CutProps
import Verif.Events.Props
import Verif.Events.OpsProps2
import Verif.Events.ZeroProps
import Verif.Events.BothProps
import Verif.Events.ChainProps
import Verif.Events.PeakProps
import Verif.Dnf.Props
import Verif.Dnf.AgainProps
import Verif.Dnf.FactorProps
import Verif.Dnf.TermProps
import Verif.Dnf.TotalProps
import Verif.Spe.Props
import Verif.Spe.Wrong
import Verif.Spe.TotalProps
import Verif.Spe.CurveProps
import Verif.Spe.DerivProps
import Verif.Spe.OpenProps
import Verif.Spe.OpenCondProps
import Verif.Spe.MixOpenProps
import Verif.Spe.SolvedProps
import Verif.Spe.LogAnsProps
import Verif.Spe.InfoTotProps
import Verif.Spe.ContigProps
import Verif.Spe.TransformProps
import Verif.Spe.InfoProps
import Verif.Misc.LogProps
import Verif.Misc.PolyProps
import Verif.Spe.MixProps
import Verif.Interp.Props
import Verif.Interp.Example
import Verif.Memo.Props
import Verif.Spe.DensityProps
import Verif.Spe.CacheProps
import Verif.Spe.Hashable
import Verif.Spe.TotKey
import Verif.Serial.Props
import Verif.Spe.AndProps
import Verif.Spe.SoundProps
import Verif.Sample.Props
import Verif.Sample.LawExample
import Verif.Sample.UnorderedProps
import Verif.Comp.Props
import Verif.Comp.Example
import Verif.Interp.TableProps
import Verif.Interp.PiecewiseProps
import Verif.Comp.TotalProps
import Verif.Comp.CallProps
import Verif.Comp.OtherLemmas
import Verif.Comp.OtherProps
import Verif.Comp.FitSpec
import Verif.Comp.FitLemmas
import Verif.Comp.FitProps
import Verif.Comp.GoesSpec
import Verif.Comp.GoesLemmas
import Verif.Comp.GoesProps
import Verif.Comp.GoesExample
import Verif.Comp.GoesDerived
import Verif.Comp.QuerySpec
import Verif.Comp.QueryProps
import Verif.Comp.PreProps
import Verif.Comp.Render
import Verif.Comp.RenderSpec
import Verif.Comp.RenderLemmas
import Verif.Comp.RenderCompile
import Verif.Comp.RenderTop
import Verif.Comp.RenderSem
import Verif.Comp.RenderLeaf
import Verif.Comp.RenderActs
import Verif.Comp.RenderAvg
import Verif.Comp.RenderProps
import Verif.Comp.Fwidth
import Verif.Comp.FwidthProps
import Verif.Spe.DistProps
import Verif.Spe.DistWrong
import Verif.Interp.BinProps
import Verif.Interp.DepthProps
import Verif.Interp.ConstrainProps
import Verif.Spe.ShapeLemmas
import Verif.Interp.TotalSpec
import Verif.Interp.TotCases
import Verif.Interp.TotLemmas
import Verif.Interp.RunProps
import Verif.Interp.RunDerived
import Verif.Interp.AgainModel
import Verif.Interp.AgainLemmas
import Verif.Interp.AgainProps
import Verif.Comp.AgainProps
import Verif.Spe.LogModel
import Verif.Spe.LogLemmas
import Verif.Spe.LogProb
import Verif.Spe.LogCond
import Verif.Spe.LogDens
import Verif.Spe.LogSpeProps
import Verif.Render.Model
import Verif.Render.Props
import Verif.Render.Graph
import Verif.Render.GraphSpec
import Verif.Render.GraphLemmas
import Verif.Render.GraphProps
import Verif.Render.SizeProps
import Verif.Render.Magics
import Verif.Misc.Timeout
import Verif.Events.ValProps
import Verif.Spe.KnownProps
import Verif.Spe.InfoCurveProps
import Verif.Interp.SessionProps
import Verif.Comp.SessionProps
