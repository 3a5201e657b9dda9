import Verif.Props.Chunk
import Verif.Props.Coadd
import Verif.Props.CoaddMore
import Verif.Props.Sched
import Verif.Props.Match
import Verif.Props.TransparencyMore
import Verif.Props.SubtractMore
import Verif.Lemmas.FitSeen
import Verif.Lemmas.Hermitian
import Verif.Props.SubtractReal
import Verif.Props.MaskFile
import Verif.Props.Border
import Verif.Props.Sources
import Verif.Props.StampsMore
import Verif.Props.StampContent
import Verif.Props.CacheMore
import Verif.Props.Interp
import Verif.Props.Clean
import Verif.Props.PsfXY
import Verif.Props.PsfXYOwn
import Verif.Props.Plot
import Verif.Props.SimCart
import Verif.Props.SimWidth
import Verif.Model.PixelKind
import Verif.Props.PixelKind
import Verif.Props.SimShape
import Verif.Props.SimImage
import Verif.Props.Utils
import Verif.Props.UtilsFiles
import Verif.Props.AlignDiff
import Verif.Props.CoaddResult
import Verif.Props.MatchGeom
import Verif.Props.TransparencyOut
import Verif.Props.SubtractScore
import Verif.Props.SubtractFront
import Verif.Props.GaussPsf
import Verif.Props.VarPsf
import Verif.Props.VarPsfNorm
import Verif.Props.KLMany
import Verif.Props.CovMatrix
import Verif.Props.Strict
import Verif.Props.InterpLone
import Verif.Props.CoaddFront
import Verif.Props.Overflow
import Verif.Props.SimStars
import Verif.Props.Noise
import Verif.Props.StarRecovery
import Verif.Props.FitCost
import Verif.Props.PlotImage
import Verif.Props.StoreFits
import Verif.Props.HatOrder
import Verif.Lemmas.Parseval
import Verif.Props.Optimal
import Verif.Props.ScoreNoise
import Verif.Props.ScoreStar
import Verif.Model.GaussCoadd
import Verif.Props.GaussCoadd
import Verif.Props.Centre
import Verif.Model.Lifecycle
import Verif.Props.Lifecycle
import Verif.Lemmas.Transpose
import Verif.Props.Transpose
import Verif.Props.Translate
import Verif.Props.Units
import Verif.Props.CoaddSymm
import Verif.Props.Photometry
import Verif.Props.Copies
import Verif.Props.RawArrays
import Verif.Props.PsfStamp
import Verif.Props.PsfScale
import Verif.Props.MaximaSymm
import Verif.Model.AlignCoadd
import Verif.Props.AlignAgain
import Verif.Props.TransparencySwap
import Verif.Props.SkyScore
import Verif.Props.Repeats
import Verif.Props.MaskedValues
import Verif.Props.KLBest
import Verif.Props.KLOrder
import Verif.Props.StarLists
import Verif.Props.MaximaClip
import Verif.Props.Energy
import Verif.Props.Turn
import Verif.Model.CoaddNan
import Verif.Props.CoaddNan
import Verif.Props.PlotOpts
import Verif.Props.CoaddPsfScale
import Verif.Props.FitGauss
import Verif.Props.ConvSame
import Verif.Props.SepInput
import Verif.Props.Named
import Verif.Props.FieldFit
import Verif.Props.Stages
import Verif.Props.Peak
import Verif.Props.Transient
import Verif.Props.Sky
import Verif.Props.SkyChange
import Verif.Model.CoaddFloat
import Verif.Props.CoaddFloat
import Verif.Props.FitRight
import Verif.Props.DeepRef
import Verif.Props.Gone
import Verif.Model.Deprecated
import Verif.Props.Deprecated
import Verif.Props.WrongPsf
import Verif.Props.CoaddOverlap
import Verif.Props.TransientPsf
import Verif.Props.WrongNoise
import Verif.Lemmas.Flip
import Verif.Props.Flip
import Verif.Props.FlipCoadd
import Verif.Props.VarFilter
import Verif.Props.VarNoise
import Verif.Model.SumFloat
import Verif.Props.SumFloat
import Verif.Props.Edges
import Verif.Props.VarSymm
import Verif.Props.StarFound
import Verif.Props.KLReturns
import Verif.Props.CoaddRef
import Verif.Props.SimReturns
import Verif.Props.PsfReturns
import Verif.Props.GaussNoise
import Verif.Props.Moved
import Verif.Props.Powerful
import Verif.Props.ChainGauss
import Verif.Props.Sufficient
import Verif.Props.Invariant
import Verif.Props.Precision
import Verif.Props.Repeat
import Verif.Props.RepeatCoadd
import Verif.Props.Store
import Verif.Props.Fit
import Verif.Props.ScoreLaw
import Verif.Props.PhotError
import Verif.Props.MeanPsf
import Verif.Props.BadPixels
import Verif.Props.SamePsf
import Verif.Props.Sharpness
import Verif.Props.Epochs
import Verif.Props.Edge
import Verif.Props.LightCurve
import Verif.Model.SubtractBits
import Verif.Props.Bits
import Verif.Model.CoaddBits
import Verif.Props.CoaddBits
import Verif.Model.ScoreBits
import Verif.Props.ScoreBits
import Verif.Model.VarBits
import Verif.Props.VarBits
