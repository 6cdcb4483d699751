import Verif.Model.Prelude
import Verif.Model.Bencode
import Verif.Spec.Bencode
import Verif.Proofs.Prelude
import Verif.Proofs.Decode
import Verif.Spec.BencodeRel
import Verif.Proofs.Grammar
import Verif.Proofs.Encode
import Verif.Props.Bencode
import Verif.Model.Info
import Verif.Model.Magnet
import Verif.Spec.Info
import Verif.Proofs.Info
import Verif.Props.Info
import Verif.Props.Magnet
import Verif.Spec.Magnet
import Verif.Props.MagnetRead
import Verif.Model.Messages
import Verif.Spec.Messages
import Verif.Proofs.Messages
import Verif.Props.Messages
import Verif.Model.Stream
import Verif.Model.Peer
import Verif.Spec.Stream
import Verif.Proofs.Stream
import Verif.Props.Stream
import Verif.Spec.Download
import Verif.Spec.Segments
import Verif.Proofs.Download
import Verif.Props.Download
import Verif.Proofs.Segments
import Verif.Proofs.Transfer
import Verif.Props.Transfer
import Verif.Model.FileSystem
import Verif.Model.Writer
import Verif.Spec.Writer
import Verif.Proofs.Writer
import Verif.Props.Writer
import Verif.Model.Tracker
import Verif.Spec.Tracker
import Verif.Proofs.Tracker
import Verif.Props.Tracker
import Verif.Model.Json
import Verif.Model.Cache
import Verif.Spec.Cache
import Verif.Proofs.Json
import Verif.Proofs.Cache
import Verif.Props.Cache
import Verif.Model.Actors
import Verif.Spec.Actors
import Verif.Proofs.Actors
import Verif.Props.Actors
import Verif.Spec.EndToEnd
import Verif.Props.EndToEnd
import Verif.Props.Honest
import Verif.Spec.Metadata
import Verif.Props.Metadata
import Verif.Props.Finish
import Verif.Model.Process
import Verif.Spec.Process
import Verif.Proofs.Process
import Verif.Props.Process
import Verif.Spec.Text
import Verif.Proofs.Text
import Verif.Proofs.Exact
import Verif.Proofs.Cut
import Verif.Props.Text
import Verif.Model.Trackers
import Verif.Spec.Trackers
import Verif.Proofs.Trackers
import Verif.Props.Trackers
import Verif.Spec.Ends
import Verif.Props.Ends
import Verif.Spec.Resume
import Verif.Props.Resume
import Verif.Props.FromMagnet
import Verif.Props.Lookup
import Verif.Model.App
import Verif.Spec.App
import Verif.Proofs.App
import Verif.Props.App
import Verif.Props.Request
import Verif.Props.Torrents
import Verif.Props.Endless
import Verif.Props.Outage
import Verif.Proofs.EncodeExact
import Verif.Proofs.EncodeTyped
import Verif.Props.Identity
import Verif.Spec.Extension
import Verif.Props.Extension
import Verif.Proofs.DecodeExact
import Verif.Spec.Escape
import Verif.Proofs.Escape
import Verif.Model.Stack
import Verif.Spec.Stack
import Verif.Proofs.Stack
import Verif.Props.Stack
import Verif.Model.Disk
import Verif.Spec.Disk
import Verif.Proofs.Disk
import Verif.Props.Disk
import Verif.Model.PeerId
import Verif.Spec.PeerId
import Verif.Props.PeerId
import Verif.Model.Clock
import Verif.Props.Clock
import Verif.Model.Memory
import Verif.Model.Buffers
import Verif.Proofs.Memory
import Verif.Props.Memory
import Verif.Props.Buffers
import Verif.Spec.Json
import Verif.Proofs.JsonGrammar
import Verif.Proofs.JsonText
import Verif.Props.JsonCache
import Verif.Spec.InfoRel
import Verif.Props.InfoExact
import Verif.Props.DownloadExact
import Verif.Props.TrackerExact
import Verif.Props.WriterExact
import Verif.Model.Race
import Verif.Proofs.Race
import Verif.Props.Race
import Verif.Props.Log
import Verif.Props.Sends
import Verif.Spec.Conversation
import Verif.Props.Conversation
import Verif.Props.LookupEnds
import Verif.Props.Announce
import Verif.Props.HttpTracker
import Verif.Model.LogText
import Verif.Model.LogCalls
import Verif.Spec.LogText
import Verif.Proofs.LogText
import Verif.Proofs.LogSize
import Verif.Props.LogText
import Verif.Props.LogVolume
import Verif.Spec.LogTells
import Verif.Proofs.LogTells
import Verif.Props.LogTells
import Verif.Spec.LogRead
import Verif.Props.LogRead
import Verif.Props.LogRecords
import Verif.Proofs.CacheKept
import Verif.Props.CacheKept
import Verif.Spec.Peers
import Verif.Props.Peers
import Verif.Model.LogOthers
import Verif.Spec.LogOthers
import Verif.Props.LogOthers
import Verif.Model.DecodeTime
import Verif.Spec.DecodeTime
import Verif.Proofs.DecodeTime
import Verif.Props.DecodeTime
import Verif.Spec.Errors
import Verif.Proofs.Faulty
import Verif.Props.Errors
import Verif.Proofs.Valid
import Verif.Spec.Crash
import Verif.Proofs.Crash
import Verif.Props.Crash
import Verif.Spec.Held
import Verif.Props.Held
import Verif.Props.HeldMost
import Verif.Model.Shuffle
import Verif.Spec.Shuffle
import Verif.Proofs.Shuffle
import Verif.Props.Shuffle
import Verif.Spec.Fair
import Verif.Props.Fair
import Verif.Props.FairRuns
import Verif.Spec.Prompt
import Verif.Props.FairStart
import Verif.Props.FairTrackers
import Verif.Spec.Timed
import Verif.Props.Timed
import Verif.Model.Pace
import Verif.Spec.Pace
import Verif.Props.Pace
import Verif.Spec.Remote
import Verif.Props.Remote
import Verif.Spec.RoundTrip
import Verif.Proofs.RoundTrip
import Verif.Props.RoundTrip
import Verif.Spec.Attempt
import Verif.Proofs.Attempt
import Verif.Props.Attempt
import Verif.Spec.Arrival
import Verif.Proofs.Arrival
import Verif.Props.Arrival
import Verif.Spec.Claims
import Verif.Props.Claims
import Verif.Model.Lifetime
import Verif.Spec.Lifetime
import Verif.Props.Lifetime
import Verif.Spec.Panics
import Verif.Props.Panics
import Verif.Spec.Anywhere
import Verif.Proofs.Anywhere
import Verif.Props.Anywhere
import Verif.Props.AnywhereRun
import Verif.Model.Mock
import Verif.Spec.Mock
import Verif.Props.Mock
import Verif.Model.Server
import Verif.Spec.Server
import Verif.Props.Server
import Verif.Props.AnywhereRequest
import Verif.Props.AnywhereDisk
import Verif.Spec.AnywhereProcess
import Verif.Props.AnywhereProcess
import Verif.Props.AnywhereAlive
import Verif.Model.Limits
import Verif.Props.Offsets
import Verif.Model.Sockets
import Verif.Props.Sockets
import Verif.Spec.GoodPeer
import Verif.Spec.Strangers
import Verif.Props.GoodPeer
import Verif.Props.Failing
import Verif.Props.SixFailures
import Verif.Props.Strangers
import Verif.Spec.Effort
import Verif.Props.Effort
import Verif.Spec.Dialogue
import Verif.Proofs.Dialogue
import Verif.Props.Dialogue
import Verif.Spec.Datagrams
import Verif.Props.Datagrams
import Verif.Spec.Echo
import Verif.Props.Echo
import Verif.Spec.Seeder
import Verif.Props.Seeder
import Verif.Spec.Growth
import Verif.Props.Growth
import Verif.Props.GrowthRun
import Verif.Props.Intact
import Verif.Props.Order
import Verif.Props.Framing
import Verif.Spec.Turn
import Verif.Props.Turn
import Verif.Spec.WriteOrder
import Verif.Props.WriteOrder
