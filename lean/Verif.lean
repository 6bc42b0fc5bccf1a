import Verif.Props.Crc
import Verif.Props.PacketHeader
import Verif.Props.PayloadHeader
import Verif.Props.Block
import Verif.Props.Payload
import Verif.Props.Slices
import Verif.Props.Rules
import Verif.Props.Packet
import Verif.Props.PacketWrite
import Verif.Props.PacketLimits
import Verif.Props.NoPanic
import Verif.Props.Reader
import Verif.Props.ReaderLimits
import Verif.Props.Slot
import Verif.Props.Storage
import Verif.Props.StorageIter
import Verif.Props.StorageCrash
import Verif.Props.StorageFail
import Verif.Props.StorageReload
import Verif.Props.StorageScan
import Verif.Props.StorageHostile
import Verif.Props.Buffered
import Verif.Props.Sensor
import Verif.Props.Locker
import Verif.Props.Generated
import Verif.Props.Macro
import Verif.Props.MacroPayload
import Verif.Props.StorageFollow
import Verif.Props.StorageEnds
import Verif.Props.StorageDamage
import Verif.Props.Unchecked
import Verif.ReaderFrames
import Verif.Props.Damaged
import Verif.Props.ReaderMemory
import Verif.Inversion
import Verif.Props.Forward
import Verif.Grammar
import Verif.Props.Language
import Verif.Props.ReaderRules
import Verif.Props.ReaderPrompt
import Verif.Props.SendReceive
import Verif.Props.PayloadDispatch
import Verif.Names
import Verif.Props.Names
import Verif.Props.Evolution
import Verif.Props.EvolutionStorage
import Verif.Site
import Verif.Props.Site
import Verif.Props.Unique
import Verif.Props.SharedStorage
import Verif.View
import Verif.Props.View
import Verif.Raw
import Verif.Props.Raw
import Verif.Writers
import Verif.Props.Writers
import Verif.Props.Wasm
import Verif.Props.Neighbours
import Verif.StorageSkip
import Verif.Props.StorageLoss
import Verif.Props.StorageStuck
import Verif.Props.StorageLive
import Verif.Asks
import Verif.Props.Asks
import Verif.Props.Join
import Verif.Build
import Verif.Props.Build
import Verif.Props.Waiting
import Verif.Props.Session
import Verif.Props.Copy
import Verif.Props.Joined
import Verif.Props.Order
import Verif.Props.Refused
import Verif.Props.Tail
import Verif.Props.Text
import Verif.Props.Torn
import Verif.Props.Mirror
import Verif.Props.StorageSeek
import Verif.Props.Before
import Verif.Props.Cut
import Verif.Props.Repair
import Verif.Stateful
import Verif.Props.Stateful
import Verif.Props.StatefulStorage
import Verif.Listening
import Verif.Props.Listening
import Verif.Props.StorageDamageFiltered
import Verif.Props.StorageDamageWrite
import Verif.Props.StorageDamageRange
import Verif.Props.StorageDamageReload
import Verif.Props.StorageDamageTable
import Verif.Props.StorageShrink
import Verif.Props.StorageShrinkRead
import Verif.Props.StorageShrinkBack
import Verif.Props.StorageShrinkWrite
import Verif.Props.StorageShrinkFollow
import Verif.Props.StorageShrinkFilter
import Verif.Props.StorageShrinkRange
import Verif.Props.StorageShrinkTail
import Verif.Props.StorageTailFilter
import Verif.Props.StorageSteady
import Verif.Props.StorageAnew
import Verif.Props.StorageUnsteady
import Verif.Props.StorageCareful
import Verif.Props.StorageCarefulFilter
import Verif.Props.CutRanges
import Verif.Props.CrashRanges
