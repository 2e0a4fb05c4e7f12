import Verif.Props.LinAlg
import Verif.Props.Blocks
import Verif.Props.MSum
import Verif.Props.RoundTrips
import Verif.Props.Thermo
import Verif.Props.Geometry
import Verif.Props.Bessel
import Verif.Props.Gaunt
import Verif.Props.Translation
import Verif.Props.TransLimit
import Verif.Props.NegM
import Verif.Props.Materials
import Verif.Props.Scattering
import Verif.Props.ScatArray
import Verif.Props.ScatLimits
import Verif.Props.ScatPlasma
import Verif.Props.ScatInternal
import Verif.Props.ScatBoundary
import Verif.Props.ScatSigns
import Verif.Props.Stratified
import Verif.Props.PFA
import Verif.Props.PFAExact
import Verif.Lemmas.PFAPressure
import Verif.Props.PFAPressure
import Verif.Props.Worker
import Verif.Props.Helpers
import Verif.Props.GauntIntegral
import Verif.Props.TransLimitInt
import Verif.Props.ZeroFreqLimit
import Verif.Props.StaticSum
import Verif.Props.TransIntegral
import Verif.Props.FiniteSign
import Verif.Props.FiniteSum
import Verif.Props.FreeEnergy
import Verif.Model.OneRoundtrip
import Verif.Props.OneRoundtrip
import Verif.Model.ZeroTemp
import Verif.Lemmas.SharpBound
import Verif.Lemmas.WaveCont
import Verif.Lemmas.PairValue
import Verif.Lemmas.Riemann
import Verif.Props.ZeroTemp
import Verif.Lemmas.PairGram
import Verif.Lemmas.PairGramK0
import Verif.Props.Distance
import Verif.Props.Catalogue
import Verif.Model.FloatBalance
import Verif.Spec.Float
import Verif.Lemmas.FloatBalance
import Verif.Props.FloatBalance
import Verif.Lemmas.CutOff
import Verif.Props.CutOff
import Verif.Model.Textbox
import Verif.Spec.Textbox
import Verif.Props.Textbox
import Verif.Lemmas.Stronger
import Verif.Lemmas.StrongerDet
import Verif.Lemmas.StrongerK0
import Verif.Props.Stronger
import Verif.Spec.Dipole
import Verif.Lemmas.DipoleBasic
import Verif.Lemmas.DipoleAmp
import Verif.Lemmas.DipoleBound
import Verif.Lemmas.DipoleK0
import Verif.Lemmas.DipoleSum
import Verif.Props.Dipole
import Verif.Spec.Scaling
import Verif.Props.Scaling
import Verif.Props.HighTemp
import Verif.Lemmas.Truncation
import Verif.Props.Truncation
import Verif.Model.StratPair
import Verif.Lemmas.Dominated
import Verif.Lemmas.LayerSign
import Verif.Lemmas.StratAmp
import Verif.Lemmas.StratTable
import Verif.Lemmas.BallPair
import Verif.Props.StratPair
import Verif.Model.Cavity
import Verif.Lemmas.LapI
import Verif.Lemmas.InnerTrans
import Verif.Lemmas.CavityEnergy
import Verif.Lemmas.CavityShift
import Verif.Lemmas.CavityGram
import Verif.Lemmas.CavityTrans
import Verif.Lemmas.CavityMie
import Verif.Lemmas.CavityStrict
import Verif.Lemmas.CavityPair
import Verif.Props.Cavity
import Verif.Props.CavityFree
import Verif.Model.FloatBessel
import Verif.Spec.FlFun
import Verif.Lemmas.Near
import Verif.Lemmas.FloatBessel
import Verif.Lemmas.FloatBesselI
import Verif.Props.FloatBessel
import Verif.Model.FloatMie
import Verif.Spec.FlMie
import Verif.Lemmas.FloatMie
import Verif.Props.FloatMie
import Verif.Model.CavityZero
import Verif.Lemmas.CavityCont
import Verif.Props.CavityZero
import Verif.Props.CavityCut
import Verif.Spec.Perturb
import Verif.Lemmas.Perturb
import Verif.Lemmas.PerturbPair
import Verif.Props.Perturb
import Verif.Model.FloatBlocks
import Verif.Spec.FlBlocks
import Verif.Lemmas.FloatBlocks
import Verif.Lemmas.AssemblyPair
import Verif.Model.FloatPair
import Verif.Spec.FlPair
import Verif.Lemmas.FloatPair
import Verif.Props.FloatBlocks
import Verif.Lemmas.InnerSign
import Verif.Lemmas.WallStronger
import Verif.Lemmas.CavityStronger
import Verif.Props.CavityStronger
import Verif.Lemmas.GeoMean
import Verif.Lemmas.ConvexDist
import Verif.Props.ConvexDist
import Verif.Props.CavityDipole
import Verif.Model.FloatSum
import Verif.Spec.FlSum
import Verif.Lemmas.FloatSum
import Verif.Props.FloatSum
import Verif.Props.FloatEnergy
import Verif.Model.FloatZero
import Verif.Spec.FlZero
import Verif.Lemmas.FloatZeroLog
import Verif.Lemmas.FloatZeroMie
import Verif.Lemmas.FloatZero
import Verif.Lemmas.FloatZeroPair
import Verif.Props.FloatZero
import Verif.Spec.DataErr
import Verif.Lemmas.LapGrowth
import Verif.Lemmas.Sensitivity
import Verif.Lemmas.SensPair
import Verif.Lemmas.SensZero
import Verif.Props.Sensitivity
import Verif.Props.FloatFree
import Verif.Lemmas.HelDecay
import Verif.Lemmas.HelGram
import Verif.Lemmas.MieTM
import Verif.Lemmas.MStep
import Verif.Props.MSumError
import Verif.Lemmas.Tame
import Verif.Lemmas.TameWave
import Verif.Lemmas.Trapezoid
import Verif.Lemmas.TameSum
import Verif.Props.Nernst
import Verif.Lemmas.LayerCompare
import Verif.Lemmas.BallAmp
import Verif.Lemmas.BallDist
import Verif.Props.StratDist
import Verif.Props.StratStronger
import Verif.Model.StratZero
import Verif.Lemmas.BallCont
import Verif.Props.StratZero
import Verif.Lemmas.LayerTM
import Verif.Lemmas.BallTM
import Verif.Props.StratMSum
import Verif.Props.Flags
import Verif.Props.WorkerArgs
import Verif.Props.PFARaw
import Verif.Lemmas.PFASphere
import Verif.Props.PFASphere
import Verif.Props.PFAWork
import Verif.Model.FloatPFA
import Verif.Spec.FlPFA
import Verif.Lemmas.FloatPFA
import Verif.Props.FloatPFA
import Verif.Props.NernstNum
import Verif.Spec.DipoleEntropy
import Verif.Lemmas.DipoleSeries
import Verif.Lemmas.DipoleEntropy
import Verif.Props.EntropySign
import Verif.Model.FloatDet
import Verif.Spec.FlDet
import Verif.Lemmas.RowSum
import Verif.Lemmas.FloatDet
import Verif.Props.FloatDet
import Verif.Model.FloatTrans
import Verif.Spec.FlTrans
import Verif.Lemmas.FloatTrans
import Verif.Props.FloatTrans
import Verif.Model.FloatGaunt
import Verif.Spec.FlGaunt
import Verif.Lemmas.FloatGaunt
import Verif.Props.FloatGaunt
import Verif.Model.FloatTransArr
import Verif.Spec.FlTransArr
import Verif.Lemmas.FloatTransArr
import Verif.Props.FloatTransArr
import Verif.Props.TotalError
import Verif.Props.Budget
import Verif.Model.FloatEntropy
import Verif.Props.EntropyErr
import Verif.Props.BudgetLimit
import Verif.Lemmas.CavityTrunc
import Verif.Props.CavityTrunc
import Verif.Props.CavityBudget
import Verif.Props.CavityStop
