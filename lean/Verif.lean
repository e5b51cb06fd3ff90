import Verif.Props.Spatial
import Verif.Props.Field
import Verif.Props.Assign
import Verif.Props.Predict
import Verif.Props.Args
import Verif.Props.Cmv
import Verif.Props.CmvXcorr
import Verif.Props.PredictData
import Verif.Props.Corr
import Verif.Props.Tf
import Verif.Props.TfDelay
import Verif.Props.Filters
import Verif.Props.Cam
import Verif.Props.Apply
import Verif.Props.Stats
import Verif.Props.Ramps
import Verif.Props.Vi
import Verif.Props.Quantile
import Verif.Props.CloudRandom
import Verif.Props.CloudMask
import Verif.Props.CloudScale
import Verif.Props.CloudTs
import Verif.Props.CopulaDist
import Verif.Props.Copula
import Verif.Props.CopulaLaw
import Verif.Props.DataIo
import Verif.Props.Hope
import Verif.Props.Hdf
import Verif.Props.HopeMain
import Verif.Props.Vis
import Verif.Spec.CmvGeom
import Verif.Proofs.CmvGeom
import Verif.Proofs.CmvTime
import Verif.Props.CmvGeom
import Verif.Spec.CmvReport
import Verif.Model.CmvData
import Verif.Props.CmvReport
import Verif.Model.Reassign
import Verif.Spec.Reassign
import Verif.Proofs.Reassign
import Verif.Props.Reassign
import Verif.Model.FullProcess
import Verif.Spec.FullProcess
import Verif.Proofs.FullProcess
import Verif.Props.FullProcess
import Verif.Props.FullProcessData
import Verif.Props.FullProcessTwo
import Verif.Props.Segments
import Verif.Props.PlantMean
import Verif.Model.CloudDemo
import Verif.Spec.CloudDemo
import Verif.Props.CloudDemo
import Verif.Model.AutoCmv
import Verif.Spec.AutoCmv
import Verif.Props.AutoCmv
import Verif.Props.CloudMore
import Verif.Model.Pool
import Verif.Spec.Pool
import Verif.Props.Pool
import Verif.Model.CmvDemo
import Verif.Props.CmvDemo
import Verif.Spec.Robust
import Verif.Props.Robust
import Verif.Props.RobustFull
import Verif.Spec.RobustCmv
import Verif.Props.RobustCmv
import Verif.Model.SignalDemo
import Verif.Proofs.SignalDemo
import Verif.Props.SignalDemo
import Verif.Model.Notebooks
import Verif.Props.Notebooks
import Verif.Proofs.CopulaJoint
import Verif.Proofs.CopulaCov
import Verif.Spec.CopulaDemo
import Verif.Props.CopulaDemo
import Verif.Spec.RobustTf
import Verif.Proofs.RobustTf
import Verif.Proofs.TfEdge
import Verif.Props.RobustTf
import Verif.Model.CmvTf
import Verif.Spec.CmvTf
import Verif.Props.CmvTf
import Verif.Spec.TfMirror
import Verif.Proofs.TfMirror
import Verif.Props.TfMirror
import Verif.Model.Window
import Verif.Props.HammingTf
import Verif.Props.TimeUnit
import Verif.Proofs.CopulaGebelein
import Verif.Props.CopulaDecorr
import Verif.Spec.CloudLaw
import Verif.Proofs.CloudLaw
import Verif.Props.CloudLaw
import Verif.Proofs.CloudSymm
import Verif.Props.CloudSymm
import Verif.Spec.Noise
import Verif.Proofs.Noise
import Verif.Props.Noise
import Verif.Props.NoiseDelay
import Verif.Spec.NoiseCmv
import Verif.Props.NoiseCmv
import Verif.Props.NoiseTf
import Verif.Spec.Subset
import Verif.Props.Subset
import Verif.Spec.PredictTf
import Verif.Props.PredictTf
import Verif.Model.CmvObject
import Verif.Props.CmvObject
import Verif.Spec.NoisePredict
import Verif.Props.NoisePredict
import Verif.Spec.NoiseCmvTf
import Verif.Props.NoiseCmvTf
import Verif.Model.CloudInternal
import Verif.Props.CloudComplement
import Verif.Spec.CmvText
import Verif.Props.CmvText
import Verif.Spec.NoiseFull
import Verif.Props.NoiseFull
import Verif.Proofs.TfBins
import Verif.Spec.PulseTf
import Verif.Props.PulseTf
import Verif.Props.PulseHamming
import Verif.Props.PulseCmv
import Verif.Spec.PulsePredict
import Verif.Props.PulsePredict
import Verif.Spec.FilterSeries
import Verif.Proofs.Gain
import Verif.Props.FilterSeries
import Verif.Props.FlatScale
import Verif.Props.InterpPhase
import Verif.Spec.Gains
import Verif.Props.PsdTf
import Verif.Props.TfGains
import Verif.Props.DelayShift
import Verif.Props.CloudSmoothing
import Verif.Model.Round
import Verif.Model.RoundVec
import Verif.Spec.Round
import Verif.Proofs.Round
import Verif.Props.Round
import Verif.Props.RoundVec
import Verif.Props.ScoreTies
import Verif.Props.RoundCross
import Verif.Props.RoundIndex
import Verif.Props.ZonePeriod
import Verif.Props.RoundAssign
import Verif.Props.RoundPredict
import Verif.Props.RoundCorr
import Verif.Props.RoundFlat
import Verif.Props.RoundSegments
import Verif.Props.RoundPlant
import Verif.Props.RoundPolar
import Verif.Model.RoundScore
import Verif.Props.RoundScore
import Verif.Model.RoundSpacetime
import Verif.Props.RoundSpacetime
import Verif.Model.RoundClearsky
import Verif.Props.RoundClearsky
import Verif.Model.RoundPercent
import Verif.Props.RoundPercent
import Verif.Model.RoundLcs
import Verif.Props.RoundLcs
import Verif.Model.RoundDelay
import Verif.Props.RoundDelay
import Verif.Model.RoundMarcos
import Verif.Props.RoundMarcos
import Verif.Proofs.RoundEven
import Verif.Model.RoundCmv
import Verif.Props.RoundCmv
import Verif.Props.RoundCoeff
import Verif.Model.RoundQc
import Verif.Props.RoundQc
import Verif.Model.RoundQuantile
import Verif.Props.RoundQuantile
import Verif.Model.RoundWeights
import Verif.Props.RoundWeights
import Verif.Model.RoundTsStats
import Verif.Props.RoundTsStats
import Verif.Model.RoundMask
import Verif.Props.RoundMask
import Verif.Model.RoundLave
import Verif.Props.RoundLave
import Verif.Model.RoundBasic
import Verif.Props.RoundBasic
import Verif.Model.RoundStack
import Verif.Props.RoundStack
import Verif.Model.RoundEdges
import Verif.Props.RoundEdges
import Verif.Model.RoundCloudfield
import Verif.Props.RoundCloudfield
