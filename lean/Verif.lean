import Verif.Props.Utilities
import Verif.Props.UtilitiesReal
import Verif.Props.Interleavers
import Verif.Props.Sequences
import Verif.Props.Impairments
import Verif.Props.Filters
import Verif.Props.Puncturing
import Verif.Props.GFields
import Verif.Props.PolyString
import Verif.Props.Algcode
import Verif.Props.Convcode
import Verif.Props.Viterbi
import Verif.Props.Float53
import Verif.Props.ViterbiSoft
import Verif.Props.Wifi
import Verif.Props.Modulation
import Verif.Props.ModemSoft
import Verif.Props.PskQam
import Verif.Props.Mimo
import Verif.Props.Kbest
import Verif.Props.MaxLog
import Verif.Props.BestFirst
import Verif.Props.Channels
import Verif.Props.ChannelsMimo
import Verif.Props.ChannelsPropagate
import Verif.Props.Links
import Verif.Props.LinksMimo
import Verif.Props.LinksMetrics
import Verif.Props.LdpcFile
import Verif.Props.LdpcLink
import Verif.Props.TurboEncode
import Verif.Props.Turbo
import Verif.Props.TurboDecode
import Verif.Props.TurboRoundtrip
import Verif.Props.ModemNoise
import Verif.Props.LinksPerfect
import Verif.Model.SisoLink
import Verif.Props.WifiLink
import Verif.Props.MSequence
import Verif.Model.LimitDen
import Verif.Props.LimitDen
import Verif.Props.LdpcFilePad
import Verif.Props.GFieldsMore
import Verif.Model.TrellisLegacy
import Verif.Props.TrellisLegacy
import Verif.Props.Edges
import Verif.Props.BestFirstValue
import Verif.Spec.Tanner
import Verif.Lemmas.BpTree
import Verif.Lemmas.BpTree2
import Verif.Lemmas.BpTree3
import Verif.Lemmas.Tanner
import Verif.Props.LdpcTree
import Verif.Model.NpTyped
import Verif.Lemmas.NpTyped
import Verif.Props.NpTyped
import Verif.Lemmas.AlgcodeTyped
import Verif.Props.AlgcodeTyped
import Verif.Model.TrellisPlot
import Verif.Spec.TrellisPlot
import Verif.Props.TrellisPlot
import Verif.Props.ZcCross
import Verif.Spec.Filters
import Verif.Lemmas.FilterSpectrum
import Verif.Lemmas.FilterMatched
import Verif.Props.FilterSpectrum
import Verif.Props.TurboSymmetry
import Verif.Props.ViterbiSymmetry
import Verif.Props.SoftAgree
import Verif.Props.SoftLink
import Verif.Model.SoftFloat
import Verif.Props.SoftFloat
import Verif.Lemmas.ViterbiLocal
import Verif.Props.ViterbiCorrect
import Verif.Lemmas.ColumnDistance
import Verif.Props.ConvDistance
import Verif.Props.ConvSparse
import Verif.Props.ConvExample
import Verif.Model.ConstellationPlot
import Verif.Props.ConstellationPlot
import Verif.Lemmas.RowSpan
import Verif.Props.LdpcCorrect
import Verif.Props.LdpcErasure
import Verif.Props.LdpcDesigns
import Verif.Lemmas.GirthCheck
import Verif.Props.LdpcCorrectEx
import Verif.Designs.Gallager963
import Verif.Designs.Gallager964
import Verif.Designs.Wimax960
import Verif.Designs.Wimax1440
import Verif.Props.LdpcFiles
import Verif.Props.LdpcShipped
import Verif.Spec.Recursive
import Verif.Lemmas.Recursive
import Verif.Props.Recursive
import Verif.Props.PulseShaping
import Verif.Props.MimoNoise
import Verif.Props.CodedModulation
import Verif.Props.BscCoding
import Verif.Props.AwgnErrors
import Verif.Props.SpaFloat
import Verif.Props.TurboFloatRoundtrip
import Verif.Props.TurboFloatExact
import Verif.Props.HardSamples
import Verif.Props.MonteCarlo
import Verif.Props.MonteCarloBsc
import Verif.Props.MonteCarloAwgn
import Verif.Props.ModemBer
import Verif.Props.ModemBerPsk
import Verif.Props.InstancesLdpc
import Verif.Props.InstancesSignal
import Verif.Props.ViterbiUnion
import Verif.Props.ViterbiNoise
import Verif.Props.ViterbiTransfer
import Verif.Props.ViterbiBer
import Verif.Props.ViterbiBerSoft
import Verif.Props.ViterbiBpsk
import Verif.Props.WifiNoise
import Verif.Props.ModemBer4
import Verif.Props.LdpcErasureExact
import Verif.Props.LdpcBec
import Verif.Props.LdpcBecEx
import Verif.Model.LdpcLeft
import Verif.Props.LdpcLeft
import Verif.Model.MsaFloat
import Verif.Props.MsaFloat
import Verif.Lemmas.GaussLinear
import Verif.Lemmas.MimoPair
import Verif.Lemmas.MimoFade
import Verif.Lemmas.Rayleigh
import Verif.Lemmas.RayleighMrc
import Verif.Props.MimoBer
import Verif.Spec.Rounding
import Verif.Model.ViterbiFloat
import Verif.Lemmas.ViterbiFloat
import Verif.Lemmas.Rounding
import Verif.Props.ViterbiFloat
import Verif.Model.ModemFloat
import Verif.Lemmas.CircleTail
import Verif.Props.ModemFloat
import Verif.Model.SoftRound
import Verif.Props.SoftRound
import Verif.Lemmas.DrawsExist
import Verif.Props.LdpcAwgn
import Verif.Props.InstancesDecoding
import Verif.Props.InstancesLinks
import Verif.Spec.Nearest
import Verif.Spec.FilterFloat
import Verif.Model.FilterFloat
import Verif.Lemmas.Nearest
import Verif.Lemmas.RelErr
import Verif.Lemmas.FilterFloat
import Verif.Props.FilterFloat
import Verif.Props.RrcosFloat
import Verif.Props.RrcosFilter
import Verif.Props.RrcosRefuted
import Verif.Props.InstancesFilter
import Verif.Spec.Float32
import Verif.Model.LdpcFloat32
import Verif.Props.LdpcFloat32
import Verif.Model.ZcFloat
import Verif.Props.ZcFloat
import Verif.Model.GaussFloat
import Verif.Props.GaussFloat
import Verif.Lemmas.ViterbiNear
import Verif.Props.ViterbiFloatLink
import Verif.Spec.QamError
import Verif.Lemmas.GrayPam
import Verif.Props.QamBer
import Verif.Props.SymbolError
import Verif.Model.ChannelsNan
import Verif.Props.ChannelsNan
import Verif.Props.NoiseScale
import Verif.Lemmas.Bayes
import Verif.Props.OptimalReceiver
import Verif.Props.OptimalMap
import Verif.Model.FiltersNan
import Verif.Props.FiltersNan
import Verif.Model.MimoFloat
import Verif.Props.MimoFloat
import Verif.Props.NearestUnique
import Verif.Props.KbestSoft
import Verif.Model.KbestTyped
import Verif.Props.KbestTyped
import Verif.Props.KbestLlr
