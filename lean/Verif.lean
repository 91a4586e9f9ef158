import Verif.Tree.SerialProps
import Verif.Tree.LossProps
import Verif.ElGamal.Props
import Verif.Proto.SSExamples
import Verif.Proto.ProgressExamples
import Verif.Proto.ProgressDelExamples
import Verif.Num.ModularProps
import Verif.Paillier.Threshold
import Verif.Proto.DelPsiExamples
import Verif.Proto.OgExamples
import Verif.Proto.IndepProps
import Verif.Proto.IndepExamples
import Verif.Rec.ProcessProps
import Verif.Data.GenProps
import Verif.Curve.HashProps
import Verif.Curve.PointUtil
import Verif.Curve.PointUtilProps
import Verif.Curve.PointGroup
import Verif.Curve.CipherProps
import Verif.Role.ServiceProps
import Verif.Role.Examples
import Verif.Setup.KeySuccess
import Verif.Setup.ImportSum
import Verif.Setup.ImportOg
import Verif.Setup.ImportDel
import Verif.Setup.ImportExamples
import Verif.View.SizeExamples
import Verif.View.OgExamples
import Verif.Num.BigNumMore
import Verif.Paillier.Rand
import Verif.Data.GenMore
import Verif.Data.GenValues
import Verif.Rec.ShardMore
import Verif.Curve.OracleMore
import Verif.Paillier.Symbol
import Verif.View.DelSymbolExamples
import Verif.View.DelHideExamples
import Verif.Wire.Props
import Verif.Main.NetRuns
import Verif.Main.AddEndProps
import Verif.Main.AddEndExamples
import Verif.Main.DelEndProps
import Verif.Main.DelEndExamples
import Verif.Main.OgEndProps
import Verif.Main.OgEndExamples
import Verif.Mock.AddProps
import Verif.Mock.DelProps
import Verif.Mock.Examples
import Verif.Wire.MergeProps
import Verif.Wire.Layout
import Verif.Main.FlagProps
import Verif.Hide.Ddh
import Verif.Hide.Uniform
import Verif.Hide.Model
import Verif.Hide.Lemmas
import Verif.Hide.Main
import Verif.Hide.Props
import Verif.Hide.Honest
import Verif.Hide.Examples
import Verif.Hide.OneProps
import Verif.Hide.OneExamples
import Verif.Hide.PsiProps
import Verif.Hide.PsiExamples
import Verif.Hide.Dcr
import Verif.Hide.UpdModel
import Verif.Hide.UpdMain
import Verif.Hide.UpdProps
import Verif.Hide.UpdExamples
import Verif.Setup.ImportProgress
import Verif.Setup.GenProgress
import Verif.Setup.ImportProgressExamples
import Verif.Main.MissingProps
import Verif.Main.MockMain
import Verif.Main.MockProps
import Verif.Main.MockDelProps
import Verif.Main.MockExamples
import Verif.Main.NetOnly
import Verif.Main.OnlyProps
import Verif.Main.OnlyOg
import Verif.Main.OnlyExamples
import Verif.Main.OnlyOgExamples
import Verif.Main.SetupOnlyExamples
import Verif.Main.InputProps
import Verif.Main.InputExamples
import Verif.Main.OutputProps
import Verif.Main.OutputExamples
import Verif.Main.FreshProps
import Verif.Main.FreshExamples
import Verif.Rec.MissingProps
import Verif.Main.OnlyDel
import Verif.Main.OnlyDelExamples
