import Verif.Common.While
import Verif.Word.Model
import Verif.Word.Lemmas
import Verif.Word.Props
import Verif.NmodExtra.Props
import Verif.MatOps.Props
import Verif.Pluq.Props
import Verif.Nullspace.Props
import Verif.MatMul.Props
import Verif.Common.Prime
import Verif.Sort.Props
import Verif.MatPoly.Props
import Verif.Mbasis.Props
import Verif.PolyMul.Props
import Verif.Pmbasis.Props
import Verif.Forms.Props
import Verif.WeakPopov.Props
import Verif.Det.Props
import Verif.Hermite.Props
import Verif.Hermite.GcdProps
import Verif.Unimodular.Props
import Verif.Forms.DetDegree
import Verif.Kernel.Spec
import Verif.Kernel.Output
import Verif.Kernel.Theory
import Verif.Kernel.Steps
import Verif.Kernel.Model
import Verif.Kernel.Lemmas
import Verif.Kernel.Approx
import Verif.Kernel.Zls
import Verif.Kernel.Props
import Verif.Verification.Props
import Verif.Approx.Pivot
import Verif.Dixon.Model
import Verif.Dixon.Props
import Verif.Crt.Spec
import Verif.Crt.Model
import Verif.Crt.Lemmas
import Verif.Crt.Reduce
import Verif.Crt.Multi
import Verif.Crt.Props
import Verif.Crt.MatModel
import Verif.Crt.MatProps
import Verif.WordCrt.Model
import Verif.WordCrt.Lemmas
import Verif.WordCrt.Props
import Verif.Rand.Model
import Verif.Rand.Lemmas
import Verif.Rand.Props
import Verif.Rand.ConstModel
import Verif.Rand.ConstProps
import Verif.Ntl.Fft
import Verif.Ntl.MiddleModel
import Verif.Ntl.MiddleLemmas
import Verif.Ntl.MiddleProps
import Verif.Ntl.CrtModel
import Verif.Ntl.CrtLemmas
import Verif.Ntl.CrtProps
import Verif.Ntl.SeriesModel
import Verif.Ntl.SeriesProps
import Verif.Ntl.ShiftModel
import Verif.Ntl.ShiftProps
import Verif.Ntl.GeomModel
import Verif.Ntl.GeomLemmas
import Verif.Ntl.GeomProps
import Verif.Ntl.OrderModel
import Verif.Ntl.OrderProps
import Verif.Common.Loop
import Verif.Ntl.MatUtilsModel
import Verif.Ntl.MatUtilsLemmas
import Verif.Ntl.MatUtilsProps
import Verif.Ntl.MatMulModel
import Verif.Ntl.MatMulSpec
import Verif.Ntl.MatMulLemmas
import Verif.Ntl.MatMulProps
import Verif.Ntl.MatEvalModel
import Verif.Ntl.MatEvalSpec
import Verif.Ntl.MatEvalLemmas
import Verif.Ntl.MatEvalDense
import Verif.Ntl.MatEvalProps
import Verif.Ntl.ThreeModel
import Verif.Ntl.ThreeSpec
import Verif.Ntl.ThreeProps
import Verif.Ntl.MatMidModel
import Verif.Ntl.MatMidSpec
import Verif.Ntl.MatMidProps
import Verif.Ntl.LMulModel
import Verif.Ntl.LMulSpec
import Verif.Ntl.LMulProps
import Verif.Ntl.InvModel
import Verif.Ntl.InvSpec
import Verif.Ntl.InvLemmas
import Verif.Ntl.InvProps
import Verif.Ntl.SolveModel
import Verif.Ntl.SolveSpec
import Verif.Ntl.SolveLemmas
import Verif.Ntl.SolveProps
import Verif.Ntl.DivModel
import Verif.Ntl.DivSpec
import Verif.Ntl.DivProps
import Verif.Ntl.LiftModel
import Verif.Ntl.LiftSpec
import Verif.Ntl.LiftLemmas
import Verif.Ntl.LiftProps
import Verif.Ntl.ParlinModel
import Verif.Ntl.ParlinSpec
import Verif.Ntl.ParlinProps
import Verif.Approx.KStep
import Verif.Ntl.MbasisModel
import Verif.Ntl.MbasisSpec
import Verif.Ntl.MbasisSort
import Verif.Ntl.MbasisBase
import Verif.Ntl.MbasisStep
import Verif.Ntl.MbasisLoops
import Verif.Ntl.MbasisPlain
import Verif.Ntl.MbasisState
import Verif.Ntl.MbasisProps
import Verif.Ntl.DetModel
import Verif.Ntl.DetMinors
import Verif.Ntl.DetEval
import Verif.Ntl.DetPoints
import Verif.Ntl.DetGeneric
import Verif.Ntl.DetExamples
import Verif.Ntl.DetProps
import Verif.Ntl.FormsModel
import Verif.Ntl.FormsSpec
import Verif.Ntl.FormsLemmas
import Verif.Ntl.FormsProps
import Verif.Approx.SpecOrders
import Verif.Approx.Orders
import Verif.Approx.PopovCall
import Verif.Ntl.AppbasModel
import Verif.Ntl.AppbasSpec
import Verif.Ntl.AppbasLemmas
import Verif.Ntl.AppbasLoop
import Verif.Ntl.AppbasPopov
import Verif.Ntl.AppbasVerify
import Verif.Ntl.AppbasProps
import Verif.Approx.SpecInterp
import Verif.Approx.Interp
import Verif.Ntl.IntbasModel
import Verif.Ntl.IntbasSpec
import Verif.Ntl.IntbasStep
import Verif.Ntl.IntbasState
import Verif.Ntl.IntbasLoops
import Verif.Ntl.IntbasPopov
import Verif.Ntl.IntbasProps
import Verif.Ntl.KerbasModel
import Verif.Ntl.KerbasTheory
import Verif.Ntl.KerbasLemmas
import Verif.Ntl.KerbasZls
import Verif.Ntl.KerbasSpec
import Verif.Ntl.KerbasProps
import Verif.Ntl.KerbasFindings
import Verif.Ntl.PopovModel
import Verif.Ntl.PopovLemmas
import Verif.Ntl.PopovUnique
import Verif.Ntl.PopovSpec
import Verif.Ntl.PopovProps
import Verif.Ntl.StructModel
import Verif.Ntl.StructSpec
import Verif.Ntl.StructLemmas
import Verif.Ntl.StructProps
import Verif.Ntl.LikeModel
import Verif.Ntl.LikeSpec
import Verif.Ntl.LikeLemmas
import Verif.Ntl.LikeProps
import Verif.Ntl.CauchyModel
import Verif.Ntl.CauchySpec
import Verif.Ntl.CauchyProps
import Verif.Ntl.SylvModel
import Verif.Ntl.SylvSpec
import Verif.Ntl.SylvLemmas
import Verif.Ntl.SylvProps
import Verif.Multi.Model
import Verif.Multi.Lemmas
import Verif.Multi.Props
import Verif.N32.Spec
import Verif.N32.Model
import Verif.N32.Lemmas
import Verif.N32.Lemmas2
import Verif.N32.Props
import Verif.Ntl.BivarModel
import Verif.Ntl.BivarSpec
import Verif.Ntl.BivarLemmas
import Verif.Ntl.BivarProps
import Verif.Ntl.BivarMul
import Verif.Ntl.BivarKron
import Verif.Ntl.BivarOps
import Verif.Ntl.BivarMore
import Verif.Ntl.BivarResModel
import Verif.Ntl.BivarRes
import Verif.Ntl.FftPointsModel
import Verif.Ntl.FftPoints
import Verif.Ntl.StructXModel
import Verif.Ntl.StructXSpec
import Verif.Ntl.StructXLemmas
import Verif.Ntl.StructXTri
import Verif.Ntl.StructXCirc
import Verif.Ntl.StructXCircProps
import Verif.Ntl.StructXLike
import Verif.Ntl.StructXExamples
import Verif.Ntl.SylvXModel
import Verif.Ntl.SylvXSpec
import Verif.Ntl.SylvXLemmas
import Verif.Ntl.SylvXProps
import Verif.Ntl.SylvXDense
import Verif.Ntl.SylvXExamples
import Verif.Ntl.NewtonXModel
import Verif.Ntl.NewtonXSpec
import Verif.Ntl.NewtonXLemmas
import Verif.Ntl.NewtonXStep
import Verif.Ntl.NewtonXProps
import Verif.Ntl.NewtonXMain
import Verif.Ntl.NewtonXHigh
import Verif.Ntl.NewtonXExamples
import Verif.Ntl.LinsolveModel
import Verif.Ntl.LinsolveSpec
import Verif.Ntl.LinsolveTheory
import Verif.Ntl.LinsolveProps
import Verif.Ntl.LinsolveMain
import Verif.Ntl.LinsolveKernel
import Verif.Ntl.LinsolveExamples
import Verif.Ntl.ReduceModel
import Verif.Ntl.ReduceSpec
import Verif.Ntl.ReduceTheory
import Verif.Ntl.ReduceProps
import Verif.Ntl.ReduceExamples
import Verif.Ntl.SeqModel
import Verif.Ntl.SeqSpec
import Verif.Ntl.SeqTheory
import Verif.Ntl.SeqLemmas
import Verif.Ntl.SeqLoop
import Verif.Ntl.SeqProps
import Verif.Ntl.SeqCheckModel
import Verif.Ntl.SeqCheckProps
import Verif.Ntl.SeqExamples
import Verif.Ntl.CLikeSpec
import Verif.Ntl.CLikeModel
import Verif.Ntl.CLikeMul
import Verif.Ntl.SweepTheory
import Verif.Ntl.CLikeRaw
import Verif.Ntl.CLikeBlock
import Verif.Ntl.CLikeRec
import Verif.Ntl.CLikeProps
import Verif.Ntl.CLikeExamples
import Verif.Ntl.MosaicModel
import Verif.Ntl.MosaicSpec
import Verif.Ntl.MosaicMul
import Verif.Ntl.MosaicGens
import Verif.Ntl.MosaicPre
import Verif.Ntl.MosaicSolve
import Verif.Ntl.MosaicInv
import Verif.Ntl.MosaicExamples
import Verif.Ntl.OneColModel
import Verif.Ntl.OneColSpec
import Verif.Ntl.OneColTheory
import Verif.Ntl.OneColLoop
import Verif.Ntl.OneColProps
import Verif.MatPoly.Memory
import Verif.MatPoly.MemSpec
import Verif.MatPoly.MemTheory
import Verif.MatPoly.MemProps
import Verif.Ntl.VecUtilsProps
import Verif.Ntl.CLikeRange
import Verif.Ntl.BlockSeqSpec
import Verif.Ntl.BlockSeqModel
import Verif.Ntl.BlockSeqTheory
import Verif.Ntl.BlockSeqMul
import Verif.Ntl.BlockSeqLemmas
import Verif.Ntl.BlockSeqProps
import Verif.Ntl.BlockSeqExample
import Verif.Ntl.ReconSpec
import Verif.Ntl.ReconModel
import Verif.Ntl.ReconProps
import Verif.CrtMem.Spec
import Verif.CrtMem.Model
import Verif.CrtMem.Theory
import Verif.CrtMem.Objects
import Verif.CrtMem.Tree
import Verif.CrtMem.Props
import Verif.CrtMem.ReduceModel
import Verif.CrtMem.ReduceProps
import Verif.Ntl.BmasSpec
import Verif.Ntl.BmasModel
import Verif.Ntl.BmasProps
import Verif.Ntl.SylvBlockModel
import Verif.Ntl.SylvBlockProps
import Verif.Ntl.VillardModel
import Verif.Ntl.VillardProps
import Verif.Ntl.VillardFail
import Verif.Ntl.VillardWrong
