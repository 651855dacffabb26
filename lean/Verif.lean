import Verif.Prelude
import Verif.Model.Strconv
import Verif.Model.SortedMap
import Verif.Model.Value
import Verif.Model.Lex
import Verif.Model.Parse
import Verif.Model.Print
import Verif.Proofs.StrconvInt
import Verif.Proofs.Float
import Verif.Proofs.FloatCanon
import Verif.Proofs.Lex
import Verif.Proofs.Panic
import Verif.Proofs.ParseFuel
import Verif.Proofs.ParseWF
import Verif.Proofs.Pretty
import Verif.Proofs.Reread
import Verif.Proofs.RfcNumber
import Verif.Proofs.RoundTrip
import Verif.Proofs.SortedMap
import Verif.Proofs.Stream
import Verif.Proofs.Streams
import Verif.Spec.Doc
import Verif.Spec.Panic
import Verif.Spec.Rfc8259
import Verif.Proofs.Rfc
import Verif.Proofs.RfcPrint
import Verif.Proofs.ParseMore
import Verif.Spec.Parse
import Verif.Props.Parse
import Verif.Model.Access
import Verif.Model.Dict
import Verif.Spec.Dict
import Verif.Spec.Text
import Verif.Proofs.Dict
import Verif.Proofs.Equals
import Verif.Proofs.DictMore
import Verif.Proofs.Text
import Verif.Props.Dict
import Verif.Model.Error
import Verif.Model.Segments
import Verif.Model.Url
import Verif.Model.Query
import Verif.Model.Currency
import Verif.Spec.Query
import Verif.Spec.Currency
import Verif.Proofs.Segments
import Verif.Proofs.Url
import Verif.Proofs.Query
import Verif.Proofs.Currency
import Verif.Props.Query
import Verif.Model.FloatRace
import Verif.Model.UnmarshalSession
import Verif.Model.Deprecated
import Verif.Model.Locales
import Verif.Spec.Session
import Verif.Spec.Deprecated
import Verif.Proofs.FloatRace
import Verif.Proofs.UnmarshalSession
import Verif.Proofs.Deprecated
import Verif.Props.Session
import Verif.Props.Access
import Verif.Model.Heap
import Verif.Spec.Heap
import Verif.Proofs.Heap
import Verif.Proofs.HeapMut
import Verif.Props.Heap
import Verif.Model.Marshal
import Verif.Spec.Marshal
import Verif.Spec.Quoted
import Verif.Proofs.MarshalTree
import Verif.Proofs.MarshalFacts
import Verif.Proofs.Quoted
import Verif.Proofs.MarshalStruct
import Verif.Proofs.MarshalEnds
import Verif.Proofs.MarshalRefs
import Verif.Proofs.MarshalWf
import Verif.Proofs.MarshalBare
import Verif.Proofs.MarshalDet
import Verif.Props.Marshal
import Verif.Model.Unmarshal
import Verif.Spec.Unmarshal
import Verif.Proofs.UnmarshalBase
import Verif.Proofs.UnmarshalRT
import Verif.Proofs.UnmarshalTidy
import Verif.Props.Unmarshal
import Verif.Proofs.UnmarshalTyped
import Verif.Proofs.UnmarshalFrame
import Verif.Proofs.UnmarshalIdem
import Verif.Props.UnmarshalMore
import Verif.Spec.Lenient
import Verif.Proofs.LenientLex
import Verif.Proofs.Lenient
import Verif.Proofs.LenientComplete
import Verif.Props.Lenient
import Verif.Model.UnmarshalHeap
import Verif.Spec.Graph
import Verif.Proofs.GraphMem
import Verif.Proofs.Graph
import Verif.Proofs.GraphMain
import Verif.Proofs.GraphPanic
import Verif.Proofs.GraphRoot
import Verif.Props.Graph
import Verif.Spec.GraphRT
import Verif.Proofs.GraphDesc
import Verif.Proofs.GraphShown
import Verif.Proofs.GraphMar
import Verif.Proofs.GraphTrip
import Verif.Proofs.GraphOrder
import Verif.Props.GraphTrip
import Verif.Spec.Memory
import Verif.Proofs.MemBase
import Verif.Proofs.MemStep
import Verif.Proofs.MemMain
import Verif.Proofs.MemReach
import Verif.Proofs.MemTop
import Verif.Props.Memory
import Verif.Proofs.MemKeep
import Verif.Model.Live
import Verif.Spec.Live
import Verif.Proofs.LiveMir
import Verif.Proofs.LiveCyc
import Verif.Proofs.Live
import Verif.Props.Live
import Verif.Model.Hooks
import Verif.Spec.Hooks
import Verif.Proofs.Hooks
import Verif.Props.Hooks
import Verif.Spec.Params
import Verif.Proofs.Params
import Verif.Props.Params
import Verif.Spec.Float
import Verif.Proofs.FloatNear
import Verif.Proofs.FloatShort
import Verif.Proofs.FloatText
import Verif.Props.Float
import Verif.Model.HookMarshal
import Verif.Spec.HookTrip
import Verif.Proofs.HookTrip
import Verif.Props.HookTrip
import Verif.Spec.Numeral
import Verif.Proofs.Numeral
import Verif.Proofs.NumeralUnder
import Verif.Proofs.NumeralFloat
import Verif.Props.Numeral
import Verif.Model.MarshalMap
import Verif.Spec.MarshalMap
import Verif.Proofs.MarshalMap
import Verif.Proofs.MarshalShuffle
import Verif.Props.MarshalMap
import Verif.Model.Deserialize
import Verif.Props.Deserialize
import Verif.Model.SharedText
import Verif.Proofs.SharedText
import Verif.Props.SharedText
import Verif.Model.Yaml
import Verif.Props.Yaml
import Verif.Model.Shortcuts
import Verif.Props.Shortcuts
import Verif.Spec.HeapCopy
import Verif.Proofs.HeapCopy
import Verif.Props.HeapCopy
import Verif.Spec.Layout
import Verif.Proofs.Layout
import Verif.Props.Layout
import Verif.Model.HeapRead
import Verif.Spec.HeapRead
import Verif.Proofs.HeapRead
import Verif.Props.HeapRead
import Verif.Model.HeapDict
import Verif.Spec.HeapDict
import Verif.Proofs.HeapDict
import Verif.Props.HeapDict
import Verif.Spec.HeapEdit
import Verif.Proofs.HeapEdit
import Verif.Props.HeapEdit
import Verif.Spec.HeapOrder
import Verif.Proofs.HeapOrder
import Verif.Props.HeapOrder
import Verif.Model.SharedData
import Verif.Spec.SharedData
import Verif.Proofs.SharedData
import Verif.Proofs.SharedUnm
import Verif.Proofs.SharedFirm
import Verif.Proofs.SharedMain
import Verif.Proofs.SharedLands
import Verif.Proofs.SharedFrame
import Verif.Props.SharedData
import Verif.Model.SharedMarshal
import Verif.Spec.SharedMarshal
import Verif.Proofs.SharedMarshal
import Verif.Proofs.SharedPut
import Verif.Props.SharedMarshal
import Verif.Spec.Nested
import Verif.Proofs.Nested
import Verif.Props.Nested
import Verif.Spec.Size
import Verif.Proofs.Size
import Verif.Proofs.SizeText
import Verif.Proofs.SizeMore
import Verif.Props.Size
import Verif.Spec.Owner
import Verif.Proofs.Owner
import Verif.Proofs.OwnerAct
import Verif.Proofs.OwnerMake
import Verif.Proofs.OwnerMain
import Verif.Props.Owner
import Verif.Props.QueryLost
import Verif.Model.HeapAccess
import Verif.Spec.HeapAccess
import Verif.Proofs.HeapAccess
import Verif.Props.HeapAccess
import Verif.Proofs.QueryExact
import Verif.Props.QueryExact
import Verif.Spec.Within
import Verif.Proofs.Within
import Verif.Props.Within
import Verif.Proofs.Float32
import Verif.Proofs.Reread32
import Verif.Proofs.SharedRefs
import Verif.Props.SharedCopy
import Verif.Spec.GoValue
import Verif.Proofs.IfaceTrip
import Verif.Props.IfaceTrip
import Verif.Model.Embedded
import Verif.Proofs.Embedded
import Verif.Props.Embedded
import Verif.Spec.Aliases
import Verif.Proofs.Aliases
import Verif.Props.Aliases
import Verif.Proofs.WithinGraph
import Verif.Spec.Blank
import Verif.Proofs.Blank
import Verif.Props.Blank
