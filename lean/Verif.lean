import Verif.Props.Buffer
import Verif.Props.FlatPQ
import Verif.Props.FlatDequeMore
import Verif.Props.Types
import Verif.Props.RealtimeMap
import Verif.Props.FlatRealtimeMap
import Verif.Props.OrderedMap
import Verif.Props.FlatOrderedMap
import Verif.Props.FlatHashMap
import Verif.Props.HashSmall
import Verif.Props.PriorityQueue
import Verif.Props.SinglyLinkedList
import Verif.Props.DoublyLinkedList
import Verif.Props.OrderedMultimap
import Verif.Props.BufferArray
import Verif.Props.Amortized
import Verif.Props.MultiAmortized
import Verif.Props.MultiEnds
import Verif.Props.Validate
import Verif.Props.ValidateFlat
import Verif.Props.ValidateLinked
import Verif.Props.ValidatePq
import Verif.Props.ValidateOmm
import Verif.Model.Messages
import Verif.Props.Messages
import Verif.Model.WavlCost
import Verif.Model.RealtimeMapCost
import Verif.Model.FlatRealtimeMapCost
import Verif.Proof.Access
import Verif.Proof.RealtimeMapAccess
import Verif.Proof.FlatRealtimeMapAccess
import Verif.Props.Logarithmic
import Verif.Props.LogarithmicFlat
import Verif.Model.FlatPQCost
import Verif.Proof.Bounds
import Verif.Proof.FlatPQCost
import Verif.Props.FlatPQCost
import Verif.Model.PriorityQueueCost
import Verif.Proof.PairingPotential
import Verif.Proof.PriorityQueueCost
import Verif.Props.PriorityQueueCost
import Verif.Model.Traverse
import Verif.Proof.Traverse
import Verif.Proof.FlatOrderedMapSpine
import Verif.Props.Traverse
import Verif.Proof.MultiTraverse
import Verif.Props.MultiTraverse
import Verif.Model.FlatDequeCost
import Verif.Props.FlatDequeCost
import Verif.Spec.Ledger
import Verif.Model.Ledger
import Verif.Model.OrderedMapLedger
import Verif.Model.RealtimeMapLedger
import Verif.Proof.Ledger
import Verif.Proof.LedgerSpec
import Verif.Proof.OrderedMapLedger
import Verif.Proof.RealtimeMapLedger
import Verif.Props.Ledger
import Verif.Model.FlatHashMapCost
import Verif.Spec.HashCost
import Verif.Proof.HashAverage
import Verif.Proof.FlatHashMapCost
import Verif.Proof.FlatHashMapGrow
import Verif.Proof.FlatHashMapUsed
import Verif.Proof.FlatHashMapRuns
import Verif.Proof.FlatHashMapAverage
import Verif.Proof.FlatHashMapAmortised
import Verif.Props.HashAverage
import Verif.Model.SinglyLinkedListCost
import Verif.Model.DoublyLinkedListCost
import Verif.Spec.ListCost
import Verif.Proof.ListCost
import Verif.Props.ListCost
import Verif.Model.SinglyLinkedListLedger
import Verif.Model.DoublyLinkedListLedger
import Verif.Spec.ListLedger
import Verif.Proof.ListLedger
import Verif.Proof.ListLedgerSpec
import Verif.Props.ListLedger
import Verif.Spec.FlatLedger
import Verif.Model.FlatLedger
import Verif.Model.FlatMapLedger
import Verif.Proof.FlatLedger
import Verif.Proof.FlatMapLedger
import Verif.Proof.FlatHashLedger
import Verif.Props.FlatLedger
import Verif.Props.EntryStatus
import Verif.Spec.Adaptive
import Verif.Proof.SplayWeights
import Verif.Proof.Adaptive
import Verif.Props.Adaptive
import Verif.Props.AdaptiveFlat
import Verif.Props.AdaptiveMulti
import Verif.Spec.Graph
import Verif.Model.Graph
import Verif.Proof.Graph
import Verif.Proof.GraphParallel
import Verif.Props.Graph
import Verif.Props.PriorityQueueLost
import Verif.Model.FlatDequeWord
import Verif.Props.FlatDequeWord
import Verif.Model.FlatPQWord
import Verif.Props.FlatPQWord
import Verif.Spec.Double
import Verif.Proof.Double
import Verif.Model.FlatHashWord
import Verif.Props.FlatHashWord
import Verif.Model.FlatRealtimeMapWord
import Verif.Props.FlatRealtimeMapWord
import Verif.Model.FlatOrderedMapWord
import Verif.Props.FlatOrderedMapWord
import Verif.Props.FlatPQAny
import Verif.Spec.PtrMapAny
import Verif.Proof.RealtimeMapAny
import Verif.Props.RealtimeMapAny
import Verif.Spec.FlatMapAny
import Verif.Proof.FlatRealtimeMapAny
import Verif.Props.FlatRealtimeMapAny
import Verif.Spec.PriorityQueueAny
import Verif.Proof.PriorityQueueAny
import Verif.Props.PriorityQueueAny
import Verif.Spec.HashMapAny
import Verif.Proof.FlatHashMapAny
import Verif.Props.FlatHashMapAny
import Verif.Props.SplayAny
import Verif.Props.OrderedMapAny
import Verif.Spec.Dictionary
import Verif.Proof.Dictionary
import Verif.Proof.DictionaryStep
import Verif.Props.Dictionary
import Verif.Proof.FlatOrderedMapAny
import Verif.Props.FlatOrderedMapAny
import Verif.Props.OrderedMultimapAny
import Verif.Spec.Maze
import Verif.Model.Maze
import Verif.Proof.MazeWays
import Verif.Proof.MazeGrid
import Verif.Proof.Maze
import Verif.Proof.MazeLoop
import Verif.Props.Maze
import Verif.Spec.Words
import Verif.Model.Words
import Verif.Proof.WordsArena
import Verif.Proof.Words
import Verif.Proof.WordsQueue
import Verif.Proof.WordsPrint
import Verif.Proof.WordsText
import Verif.Props.Words
import Verif.Spec.Search
import Verif.Model.Search
import Verif.Proof.SearchInv
import Verif.Proof.Search
import Verif.Props.Search
import Verif.Props.SearchGraph
import Verif.Props.SearchSolve
import Verif.Model.SearchPlace
import Verif.Props.SearchPlace
import Verif.Model.SearchPaint
import Verif.Props.SearchPaint
import Verif.Model.SearchLabel
import Verif.Props.SearchLabel
import Verif.Model.SearchAsk
import Verif.Props.SearchAsk
import Verif.Model.SearchShape
import Verif.Props.SearchShape
