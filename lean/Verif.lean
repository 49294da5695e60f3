import Verif.Py.Err
import Verif.Py.Str
import Verif.Py.StrLemmas
import Verif.KeyTransformers
import Verif.KeyTransformersLemmas
import Verif.Props.KeyTransformers
import Verif.Py.Float
import Verif.Multitask
import Verif.MultitaskLemmas
import Verif.Props.Multitask
import Verif.Datetime
import Verif.DatetimeOffset
import Verif.DatetimeLemmas
import Verif.Timedelta
import Verif.Props.Datetime
import Verif.Props.Timedelta
import Verif.Registry
import Verif.RegistryLemmas
import Verif.Props.Registry
import Verif.Cache
import Verif.Props.Cache
import Verif.Props.ClassNames
import Verif.Core.Val
import Verif.Core.Env
import Verif.Core.Dump
import Verif.Core.Dispatch
import Verif.Core.DispatchLemmas
import Verif.Core.ResLemmas
import Verif.Core.Json
import Verif.Core.DumpClosure
import Verif.Core.MetaLemmas
import Verif.Core.Demo
import Verif.Props.DumpShape
import Verif.Core.DumpLemmas
import Verif.Core.AttrLemmas
import Verif.Props.DumpCollections
import Verif.Props.DumpObject
import Verif.Core.Load
import Verif.Core.LoadDispatch
import Verif.Core.LoadDemo
import Verif.Core.LoadLemmas
import Verif.Props.LoadBasics
import Verif.Props.LoadCollections
import Verif.Props.LoadObject
import Verif.Props.LoadTypes
import Verif.Props.LoadMeta
import Verif.Props.LoadPlain
import Verif.Props.RoundTrip
import Verif.Api.Verbosity
import Verif.Props.Verbosity
import Verif.Api.JsonText
import Verif.Api.JsonGrammar
import Verif.Api.JsonPrint
import Verif.Api.Functions
import Verif.Api.Decorators
import Verif.Api.JsonSerializable
import Verif.Props.Functions
import Verif.Props.Decorators
import Verif.Props.JsonSerializable
import Verif.Core.FillLemmas
import Verif.Props.DumpVerbose
import Verif.Props.VerboseRoundTrip
import Verif.Props.HashedKeys
import Verif.Core.LoadInput
import Verif.Core.LoadInputLemmas
import Verif.Props.LoadDispatch
import Verif.Props.LoadInput
import Verif.Props.Timezones
import Verif.Props.TextRoundTrip
import Verif.Props.DumpStyle
import Verif.Props.Times
import Verif.Props.DumpTyped
import Verif.Props.StrictTuples
import Verif.Props.LoadRename
import Verif.Props.Refuses
import Verif.Props.Forks
import Verif.Props.Depth
import Verif.Props.DumpDepth
import Verif.Props.StrictLoad
import Verif.Props.KeyOrder
import Verif.Props.Stability
import Verif.Props.Hidden
import Verif.Props.Forward
import Verif.Props.Blame
import Verif.Props.AttrOrder
import Verif.Props.Registrations
import Verif.Props.NamedClass
import Verif.Props.Quiet
import Verif.Props.StyledRoundTrip
import Verif.Props.RegistrationOrder
import Verif.Threads
import Verif.Props.Threads
import Verif.Props.Calls
import Verif.Props.CallsBound
import Verif.Props.DumpCalls
import Verif.Props.DumpCallsDemo
import Verif.Core.Heap
import Verif.Props.SharingSim
import Verif.Props.Sharing
import Verif.Core.HeapLoad
import Verif.Props.LoadSharingSim
import Verif.Props.LoadSharingWithin
import Verif.Props.LoadSharing
import Verif.Props.Options
import Verif.Props.NewTypes
import Verif.Props.Distinct
import Verif.Props.GenericNames
import Verif.Props.VerboseCollections
import Verif.Props.StrictDump
import Verif.Props.VerboseAdds
import Verif.Props.StrictStyled
import Verif.Props.VerboseStyled
import Verif.Props.Trust
import Verif.Props.DumpTwice
import Verif.Props.InAdvance
import Verif.Props.VerboseLists
import Verif.Props.SchemaGrowth
import Verif.Props.Rename
import Verif.Props.UnionOrder
import Verif.Props.StripAttr
import Verif.Props.OneAttr
import Verif.Props.Widening
import Verif.Props.UnionHints
import Verif.Props.Annotations
import Verif.Props.ParamOrder
import Verif.Props.EnumGrowth
