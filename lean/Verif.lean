import Verif.Model.ArrayMem
import Verif.Model.Base
import Verif.Model.Bin
import Verif.Model.Bin32
import Verif.Model.Bytes
import Verif.Model.DeriveGen
import Verif.Model.DeriveHeader
import Verif.Model.DeriveParse
import Verif.Model.ErrText
import Verif.Model.GenDe
import Verif.Model.GenWrite
import Verif.Model.Json
import Verif.Model.JsonI32
import Verif.Model.Lex
import Verif.Model.Ron
import Verif.Model.Stream
import Verif.Model.Text32
import Verif.Model.Toml
import Verif.Model.TomlGet
import Verif.Spec.ArrayMem
import Verif.Spec.Basic
import Verif.Spec.Bin
import Verif.Spec.Bin32
import Verif.Spec.BinEvolve
import Verif.Spec.BinLayout
import Verif.Spec.BinPanic
import Verif.Spec.BinRead
import Verif.Spec.DeriveDecl
import Verif.Spec.DeriveDef
import Verif.Spec.DeriveRead
import Verif.Spec.EmptyArr
import Verif.Spec.ErrText
import Verif.Spec.Evolve
import Verif.Spec.Float
import Verif.Spec.GenCode
import Verif.Spec.HashOrder
import Verif.Spec.HashReorder
import Verif.Spec.JsonDecode
import Verif.Spec.JsonDoc
import Verif.Spec.JsonMeans
import Verif.Spec.JsonObject
import Verif.Spec.JsonSafe
import Verif.Spec.JsonScan
import Verif.Spec.JsonShape
import Verif.Spec.JsonValid
import Verif.Spec.JsonWhole
import Verif.Spec.Layout
import Verif.Spec.OneLine
import Verif.Spec.Prog
import Verif.Spec.Reorder
import Verif.Spec.Reread
import Verif.Spec.Rfc8259
import Verif.Spec.RonDoc
import Verif.Spec.RonEvolve
import Verif.Spec.RonHashReorder
import Verif.Spec.RonLayout
import Verif.Spec.RonMeans
import Verif.Spec.RonReorder
import Verif.Spec.RonSafe
import Verif.Spec.RonScan
import Verif.Spec.RonWhole
import Verif.Spec.Skip
import Verif.Spec.Stream
import Verif.Spec.Text
import Verif.Spec.Text32
import Verif.Spec.TextErr
import Verif.Spec.Toml
import Verif.Spec.TomlRead
import Verif.Spec.TomlSame
import Verif.Spec.Transcode
import Verif.Spec.Unknown
import Verif.Spec.Weight
import Verif.Spec.WeightToml
import Verif.Spec.WrittenSize
import Verif.Lemmas.Agree
import Verif.Lemmas.ArrayMem
import Verif.Lemmas.Bin
import Verif.Lemmas.Bin32
import Verif.Lemmas.BinEvolve
import Verif.Lemmas.BinHalts
import Verif.Lemmas.BinLocal
import Verif.Lemmas.BinMore
import Verif.Lemmas.BinPanic
import Verif.Lemmas.BinRoundTrip
import Verif.Lemmas.BinSays
import Verif.Lemmas.BinSays2
import Verif.Lemmas.BinSays32
import Verif.Lemmas.BinTyped
import Verif.Lemmas.Bytes
import Verif.Lemmas.Coll
import Verif.Lemmas.CollSpec
import Verif.Lemmas.CurRel
import Verif.Lemmas.Cut
import Verif.Lemmas.CutAll
import Verif.Lemmas.CutDeJson
import Verif.Lemmas.CutDur
import Verif.Lemmas.CutNamed
import Verif.Lemmas.CutRead
import Verif.Lemmas.CutText
import Verif.Lemmas.CutTree
import Verif.Lemmas.DeriveAttr
import Verif.Lemmas.DeriveDef
import Verif.Lemmas.DeriveEnds
import Verif.Lemmas.DeriveGenerics
import Verif.Lemmas.DeriveItem
import Verif.Lemmas.DeriveText
import Verif.Lemmas.DeriveType
import Verif.Lemmas.DeriveVariant
import Verif.Lemmas.EmptyArr
import Verif.Lemmas.Ends
import Verif.Lemmas.ErrText
import Verif.Lemmas.GenDe
import Verif.Lemmas.GenDeBin
import Verif.Lemmas.GenDeJson
import Verif.Lemmas.GenDeRon
import Verif.Lemmas.GenDeText
import Verif.Lemmas.GenRead
import Verif.Lemmas.GenReadDe
import Verif.Lemmas.GenWrite
import Verif.Lemmas.GenWriteItem
import Verif.Lemmas.GenWriteText
import Verif.Lemmas.HashOrder
import Verif.Lemmas.HashReorder
import Verif.Lemmas.HoldsMono
import Verif.Lemmas.HoldsTyped
import Verif.Lemmas.JsonBadNum
import Verif.Lemmas.JsonBalance
import Verif.Lemmas.JsonDen
import Verif.Lemmas.JsonEnds
import Verif.Lemmas.JsonEnum
import Verif.Lemmas.JsonEvolve
import Verif.Lemmas.JsonExactT
import Verif.Lemmas.JsonHalts
import Verif.Lemmas.JsonI32
import Verif.Lemmas.JsonLayout
import Verif.Lemmas.JsonLex
import Verif.Lemmas.JsonMeans
import Verif.Lemmas.JsonMeans2
import Verif.Lemmas.JsonMeans3
import Verif.Lemmas.JsonMembers
import Verif.Lemmas.JsonMissing
import Verif.Lemmas.JsonPos
import Verif.Lemmas.JsonRead
import Verif.Lemmas.JsonRead2
import Verif.Lemmas.JsonRead3
import Verif.Lemmas.JsonRefine
import Verif.Lemmas.JsonRefine2
import Verif.Lemmas.JsonRefine3
import Verif.Lemmas.JsonRefine4
import Verif.Lemmas.JsonRender
import Verif.Lemmas.JsonRoundTrip
import Verif.Lemmas.JsonRun
import Verif.Lemmas.JsonSaysOf
import Verif.Lemmas.JsonScan
import Verif.Lemmas.JsonScan2
import Verif.Lemmas.JsonShapes
import Verif.Lemmas.JsonSound
import Verif.Lemmas.JsonSound2
import Verif.Lemmas.JsonSound3
import Verif.Lemmas.JsonStuck
import Verif.Lemmas.JsonText
import Verif.Lemmas.JsonTotal
import Verif.Lemmas.JsonTrail
import Verif.Lemmas.JsonValid
import Verif.Lemmas.Lawful
import Verif.Lemmas.Lex
import Verif.Lemmas.LexBad
import Verif.Lemmas.LexDoc
import Verif.Lemmas.LittleEndian
import Verif.Lemmas.Monad
import Verif.Lemmas.Mono
import Verif.Lemmas.Narrow
import Verif.Lemmas.NarrowSer
import Verif.Lemmas.OneLine
import Verif.Lemmas.Par
import Verif.Lemmas.ProgTys
import Verif.Lemmas.Progress
import Verif.Lemmas.Reorder
import Verif.Lemmas.Reread
import Verif.Lemmas.RereadRon
import Verif.Lemmas.RfcScan
import Verif.Lemmas.RonEnds
import Verif.Lemmas.RonEvolve
import Verif.Lemmas.RonEvolve2
import Verif.Lemmas.RonExactT
import Verif.Lemmas.RonHashReorder
import Verif.Lemmas.RonLayout
import Verif.Lemmas.RonLayoutX
import Verif.Lemmas.RonLex
import Verif.Lemmas.RonMembers
import Verif.Lemmas.RonRead
import Verif.Lemmas.RonRead2
import Verif.Lemmas.RonRender
import Verif.Lemmas.RonReorder
import Verif.Lemmas.RonRoundTrip
import Verif.Lemmas.RonScan
import Verif.Lemmas.RonScan2
import Verif.Lemmas.RonSim
import Verif.Lemmas.RonSound
import Verif.Lemmas.RonSound2
import Verif.Lemmas.RonSound3
import Verif.Lemmas.RonSound4
import Verif.Lemmas.RonSound5
import Verif.Lemmas.RonText
import Verif.Lemmas.Run
import Verif.Lemmas.Sim
import Verif.Lemmas.SkipJson
import Verif.Lemmas.SkipRon
import Verif.Lemmas.Stream
import Verif.Lemmas.StreamRon
import Verif.Lemmas.StreamText
import Verif.Lemmas.TomlErr
import Verif.Lemmas.TomlExact
import Verif.Lemmas.TomlHalts
import Verif.Lemmas.TomlLex
import Verif.Lemmas.TomlLocal
import Verif.Lemmas.TomlPanic
import Verif.Lemmas.TomlParse
import Verif.Lemmas.TomlRel
import Verif.Lemmas.TomlSame
import Verif.Lemmas.TomlScan
import Verif.Lemmas.TomlScan2
import Verif.Lemmas.TomlScan3
import Verif.Lemmas.TomlSound
import Verif.Lemmas.TomlUnique
import Verif.Lemmas.Trace
import Verif.Lemmas.Transcode
import Verif.Lemmas.Truncate
import Verif.Lemmas.TruncateRon
import Verif.Lemmas.Unknown
import Verif.Lemmas.Weight
import Verif.Lemmas.WeightBin
import Verif.Lemmas.WeightRon
import Verif.Lemmas.WeightToml
import Verif.Lemmas.WrittenSize
import Verif.Props.ArrayMem
import Verif.Props.Bin
import Verif.Props.Bin32
import Verif.Props.BinEvolve
import Verif.Props.BinLayout
import Verif.Props.BinRead
import Verif.Props.BinValues
import Verif.Props.Cut
import Verif.Props.Depth
import Verif.Props.Derive
import Verif.Props.DeriveEnds
import Verif.Props.DeriveFn
import Verif.Props.ErrText
import Verif.Props.Evolve
import Verif.Props.Examples
import Verif.Props.ExamplesText
import Verif.Props.GenDe
import Verif.Props.GenProxy
import Verif.Props.GenRound
import Verif.Props.GenWrite
import Verif.Props.HashOrder
import Verif.Props.HashReorder
import Verif.Props.JsonHalts
import Verif.Props.JsonI32
import Verif.Props.JsonLayout
import Verif.Props.JsonMeans
import Verif.Props.JsonNumbers
import Verif.Props.JsonObjects
import Verif.Props.JsonPos
import Verif.Props.JsonRound
import Verif.Props.JsonShapes
import Verif.Props.JsonStrings
import Verif.Props.JsonTrail
import Verif.Props.JsonValid
import Verif.Props.JsonWhole
import Verif.Props.OneLine
import Verif.Props.Reorder
import Verif.Props.Reread
import Verif.Props.RonEvolve
import Verif.Props.RonHalts
import Verif.Props.RonLayout
import Verif.Props.RonNumbers
import Verif.Props.RonObjects
import Verif.Props.RonRound
import Verif.Props.RonWhole
import Verif.Props.SameData
import Verif.Props.Stream
import Verif.Props.Text32
import Verif.Props.Toml
import Verif.Props.TomlExamples
import Verif.Props.TomlGet
import Verif.Props.TomlSame
import Verif.Props.TomlWhole
import Verif.Props.Transcode
import Verif.Props.Truncate
import Verif.Props.Weight
import Verif.Props.WitnessBin
import Verif.Props.WitnessJson
import Verif.Props.WitnessRon
import Verif.Props.WrittenSize
