import Verif.Basic
import Verif.AC.Props
import Verif.AC.PropsCapacity
import Verif.Rans.Props3
import Verif.Rans.PropsCapacity
import Verif.Diffusion.Props
import Verif.Diffusion.Quant
import Verif.Diffusion.Ckpt
import Verif.Vct.PropsPatcher
import Verif.Vct.PropsBottleneck
import Verif.Vct.PropsEntropy
import Verif.Vct.PropsAttention
import Verif.Vct.PropsMemoize
import Verif.Vct.PropsPipeline
import Verif.Train.PropsSchedules
import Verif.Functional.PropsPad
import Verif.Functional.PropsSoftRound
import Verif.Functional.PropsNormalCdf
import Verif.Functional.PropsScalar
import Verif.Functional.PropsColor
import Verif.Functional.PropsColorInverse
import Verif.Functional.PropsWarp
import Verif.Functional.PropsFlops
import Verif.Functional.PropsMsSsim
import Verif.Functional.PropsTails
import Verif.Layers.PropsUniformNoise
import Verif.Layers.PropsVq
import Verif.Layers.PropsEntropy
import Verif.Layers.PropsNorm
import Verif.Models.PropsDvc
import Verif.Models.PropsUnet
import Verif.Models.PropsHific
import Verif.Train.PropsRate
import Verif.Train.PropsGan
import Verif.Train.PropsGop
import Verif.Train.PropsPatches
import Verif.Train.PropsAccum
import Verif.Train.PropsPsnr
import Verif.Data.PropsFrames
import Verif.Data.PropsStore
import Verif.Train.PropsLoss
import Verif.Script.PropsRespace
import Verif.Script.PropsResume
import Verif.Train.PropsLoop
import Verif.Train.PropsRuns
import Verif.Data.PropsLoaders
import Verif.Train.PropsKeys
import Verif.Script.PropsCifar
import Verif.Script.PropsVlb
import Verif.Vct.PropsMetrics
import Verif.Train.PropsTestSets
import Verif.Train.PropsLogCache
import Verif.Models.PropsVqVae
import Verif.Vct.PropsTables
import Verif.Vct.PropsHistory
import Verif.Train.PropsStages
import Verif.Script.PropsTrainResume
import Verif.Models.PropsHificValues
import Verif.Train.PropsDvcLoss
import Verif.Functional.PropsMsSsimValue
import Verif.Functional.PropsMsSsimInvariance
import Verif.Models.PropsZoo
import Verif.Train.PropsBuild
import Verif.Diffusion.PropsStatistics
import Verif.Models.PropsDvcNets
import Verif.Vct.PropsSettings
import Verif.Vct.PropsDepth
import Verif.Script.PropsEvalFolder
import Verif.Layers.PropsEntropyQueries
import Verif.Data.PropsClips
import Verif.Layers.PropsNoisyLaw
import Verif.Data.PropsImages
import Verif.Train.PropsVctRun
import Verif.Script.PropsRateFiles
import Verif.Layers.PropsLatentTree
import Verif.Vct.PropsReport
import Verif.Vct.PropsAgree
import Verif.Diffusion.PropsRate
import Verif.Vct.Online
import Verif.Vct.PropsOnline
import Verif.Diffusion.Gaussian
import Verif.Diffusion.PropsGaussian
import Verif.Train.Autograd
import Verif.Train.PropsAutograd
import Verif.Train.ImageGrad
import Verif.Train.PropsImageGrad
import Verif.Vct.Grad
import Verif.Vct.PropsGrad
import Verif.Train.DvcGrad
import Verif.Train.PropsDvcGrad
import Verif.Functional.SinglePrecision
import Verif.Functional.PropsSinglePrecision
import Verif.Layers.GdnTrain
import Verif.Layers.PropsGdnTrain
import Verif.Functional.Lpips
import Verif.Functional.PropsLpips
import Verif.Train.DvcOptim
import Verif.Train.PropsDvcOptim
import Verif.Data.Ranks
import Verif.Data.PropsRanks
import Verif.Models.HificNet
import Verif.Models.PropsHificNet
import Verif.Vct.Net
import Verif.Vct.NetLemmas
import Verif.Vct.PropsNet
import Verif.Models.VqVaeNet
import Verif.Models.PropsVqVaeNet
import Verif.Models.UnetNet
import Verif.Models.PropsUnetNet
import Verif.Models.DvcValues
import Verif.Models.DvcValuesLemmas
import Verif.Models.PropsDvcValues
import Verif.Models.PropsDvcValues2
import Verif.Models.PropsDvcValues3
import Verif.Models.PropsDvcValues4
import Verif.Models.DvcValuesCases
import Verif.Train.Shown
import Verif.Train.PropsShown
import Verif.AC.PropsOptimal
import Verif.Train.Validation
import Verif.Train.PropsValidation
import Verif.Train.VideoValidation
import Verif.Train.PropsVideoValidation
import Verif.Data.Listing
import Verif.Data.PropsListing
import Verif.Data.PropsDownload
import Verif.Script.Plots
import Verif.Script.PropsPlots
import Verif.Rans.PropsOptimal
import Verif.Functional.Gradients
import Verif.Functional.PropsGradients
import Verif.Functional.SoftRoundGrad
import Verif.Functional.PropsSoftRoundGrad
import Verif.Functional.PropsSoftRoundAlpha
import Verif.Functional.MsSsimGrad
import Verif.Functional.PropsMsSsimGrad
import Verif.Functional.WarpGrad
import Verif.Functional.PropsWarpGrad
import Verif.Models.Projector
import Verif.Models.PropsProjector
import Verif.Layers.PropsGdnBijective
import Verif.AC.PropsOrder
import Verif.Rans.PropsSteps
import Verif.Models.Restore
import Verif.Models.PropsRestore
import Verif.Vct.RateGrad
import Verif.Vct.PropsRateGrad
import Verif.Layers.VqTrain
import Verif.Layers.PropsVqTrain
import Verif.Train.LossGrad
import Verif.Train.PropsLossGrad
import Verif.Vct.BnSettings
import Verif.Vct.PropsBnSettings
import Verif.Train.Clip
import Verif.Train.PropsClip
