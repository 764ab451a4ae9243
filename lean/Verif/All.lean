import Verif.Arc.Effects
import Verif.Props.ArcSafety
import Verif.Props.ArcCalls
import Verif.Props.ArcLedger
import Verif.Props.ArcProgress
import Verif.Props.ArcFair
import Verif.Props.ArcLen
import Verif.Props.ArcTree
import Verif.Props.ArcUnsound
import Verif.Props.ArcContainer
import Verif.Props.ArcRace
import Verif.Props.ArcLoads
import Verif.Props.ArcWeak
import Verif.Props.PoolWeak
import Verif.Props.ArcMulti
import Verif.Props.ArcStack
import Verif.Props.Intern
import Verif.Props.InternMore
import Verif.Props.InternReentrant
import Verif.Props.Arena
import Verif.Props.ArenaLate
import Verif.Props.ArenaSync
import Verif.Props.TypeMap
import Verif.Props.TypeMapFair
import Verif.Props.Unlawful
import Verif.Props.PoolLedger
import Verif.Props.Mix
import Verif.Props.ArcWild
import Verif.Props.ArcInsert
import Verif.Props.ArcReentrant
import Verif.Props.TypeArena
import Verif.Props.TypeArenaFair
import Verif.Props.TypeArenaTables
import Verif.Closures.Model
import Verif.Closures.Facts
import Verif.Closures.Now
import Verif.Closures.Reach
import Verif.Props.EndToEnd
import Verif.Props.NewIntern
import Verif.Props.TypeArenaWeak
import Verif.Props.Alias
import Verif.Props.Clear
import Verif.Props.DeepCtx
import Verif.Props.DeepScan
import Verif.Props.HashFree
import Verif.Props.Constructors
import Verif.Props.Memory
import Verif.Props.Nested
import Verif.Props.ArcMemory
import Verif.Props.ArcSource
import Verif.Props.ArcSourceNested
import Verif.Props.ArcSourceValues
import Verif.Props.ArcSourceFair
import Verif.Props.PoolSourceFair
import Verif.Props.PoolSource
import Verif.Props.PoolFair
import Verif.Props.Fits64
import Verif.Props.Dst
import Verif.Props.NewSource
import Verif.Props.NewSourceFair
import Verif.Props.DstConvert
import Verif.Props.Traits
import Verif.Props.Serde
import Verif.Props.DeepSize
import Verif.Conformance
import Verif.Props.ArcSourceHeld
import Verif.Props.ArcSourceHeldFair
import Verif.Props.Transparent
import Verif.Props.TransparentMany
import Verif.Props.Complete
import Verif.Props.HashCons
import Verif.Props.Sharing
import Verif.Props.TermTraits
import Verif.Props.HashConsCopy
import Verif.Props.CompleteCopy
import Verif.Props.TermTraitsCopy
import Verif.Props.CompleteTerm
import Verif.Props.CopyTermination
import Verif.Props.Termination
import Verif.Props.TerminationMany
