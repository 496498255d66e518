import Verif.Props.Math
import Verif.Props.Heap
import Verif.Props.HeapShared
import Verif.Props.Reap
import Verif.Props.Meap
import Verif.Props.Ring
import Verif.Props.RingSPSC
import Verif.Props.RingTSO
import Verif.Props.LinkedList
import Verif.Props.Set
import Verif.Props.Limiter
import Verif.Props.LimiterToken
import Verif.Props.LimiterWindow
import Verif.Props.LimiterLog
import Verif.Props.LimiterConc
import Verif.Props.Bloom
import Verif.Props.DelayQueue
import Verif.Props.TimingWheel
import Verif.Props.Gorm
import Verif.Props.Strings
import Verif.Props.Paths
import Verif.Props.Urls
import Verif.Props.Base64
import Verif.Props.Strconv
import Verif.Props.Aes
import Verif.Props.Md5
import Verif.Props.Upload
import Verif.Props.Files
import Verif.Props.Scan
import Verif.Props.Misc
import Verif.Props.SafeMap
import Verif.Spec.Json
import Verif.Model.Json
import Verif.Proof.Json
import Verif.Props.Json
import Verif.Proof.JsonText
import Verif.Proof.JsonString
import Verif.Props.JsonExact
import Verif.Model.JsonValue
import Verif.Props.JsonValue
import Verif.Model.Csv
import Verif.Props.Csv
import Verif.Props.CsvExact
import Verif.Model.Zip
import Verif.Proof.Zip
import Verif.Props.Zip
import Verif.Model.FileIo
import Verif.Props.FileIo
import Verif.Model.FileSize
import Verif.Props.FileSize
import Verif.Model.Sniff
import Verif.Props.Sniff
import Verif.Model.Times
import Verif.Props.Times
import Verif.Model.Sys
import Verif.Props.Sys
import Verif.Model.GormTable
import Verif.Props.GormTable
import Verif.Model.DelayChannel
import Verif.Props.DelayChannel
import Verif.Model.SlidingError
import Verif.Props.SlidingError
import Verif.Model.JsonDump
import Verif.Props.JsonDump
import Verif.Go.Float64
import Verif.Model.Round
import Verif.Props.Round
import Verif.Props.RoundWhole
import Verif.Model.Log2
import Verif.Props.Log2
import Verif.Model.BloomSize
import Verif.Props.BloomSize
import Verif.Model.ReapWorld
import Verif.Props.ReapWorld
import Verif.Model.MeapNan
import Verif.Props.MeapNan
import Verif.Model.MathFloat
import Verif.Props.MathFloat
import Verif.Model.TimingFine
import Verif.Proof.TimingFine
import Verif.Props.TimingFine
import Verif.Model.SafeMapLock
import Verif.Props.SafeMapLock
import Verif.Model.SafeMapKeys
import Verif.Props.SafeMapKeys
import Verif.Model.Calendar
import Verif.Props.Calendar
import Verif.Model.BloomConc
import Verif.Props.BloomConc
import Verif.Model.HashConc
import Verif.Props.HashConc
import Verif.Model.GormExec
import Verif.Spec.SqlExec
import Verif.Proof.GormExec
import Verif.Props.GormExec
import Verif.Props.GormDb
import Verif.Spec.AesBlock
import Verif.Props.AesBlock
import Verif.Props.AesAttack
import Verif.Spec.Md5Rfc
import Verif.Model.Md5Digest
import Verif.Proof.Md5Digest
import Verif.Props.Md5Digest
import Verif.Model.FsLink
import Verif.Spec.Walk
import Verif.Proof.FsLink
import Verif.Props.FsLink
import Verif.Props.FsLink2
import Verif.Proof.UnzipLink
import Verif.Props.UnzipLink
import Verif.Props.MoveLink
import Verif.Model.ScanLink
import Verif.Props.ScanLink
import Verif.Model.BloomFloat
import Verif.Proof.BloomFloat
import Verif.Props.BloomFloat
import Verif.Proof.TimingPaced
import Verif.Props.TimingPaced
import Verif.Model.Timing64
import Verif.Proof.Timing64
import Verif.Props.Timing64
import Verif.Model.HeapCost
import Verif.Proof.HeapCost
import Verif.Props.HeapCost
import Verif.Props.Edges
import Verif.Model.RingCost
import Verif.Props.RingCost
import Verif.Model.OpenFiles
import Verif.Props.OpenFiles
import Verif.Props.RingKeeps
import Verif.Props.ListReach
import Verif.Model.TimingWhole
import Verif.Proof.TimingWhole
import Verif.Proof.TimingProto
import Verif.Props.TimingWhole
import Verif.Props.BloomFalse
import Verif.Model.Rand
import Verif.Props.Rand
import Verif.Model.TimingSet
import Verif.Props.TimingSet
import Verif.Props.LimiterSet
import Verif.Props.LogSet
import Verif.Props.RingPso
import Verif.Model.Schedule
import Verif.Props.Schedule
import Verif.Model.UploadConc
import Verif.Props.UploadConc
import Verif.Model.CsvConc
import Verif.Props.CsvConc
import Verif.Model.DelayChannels
import Verif.Props.DelayChannels
import Verif.Model.TimingRestart
import Verif.Props.TimingRestart
import Verif.Props.HeapKeeps
import Verif.Props.MakeConc
import Verif.Props.CopyConc
import Verif.Props.HeapCount
import Verif.Props.MoveConc
import Verif.Props.MakeDuring
import Verif.Props.TimingRuns
import Verif.Props.RandConc
import Verif.Props.Log2Float
import Verif.Props.HandleMem
import Verif.Props.RoundZero
import Verif.Props.RoundMono
import Verif.Props.Log2Float32
import Verif.Props.RoundSign
import Verif.Props.TimingEnd
import Verif.Props.RoundLow
import Verif.Model.MathFloat32
import Verif.Props.MathFloatAll
import Verif.Props.MathFloat32
import Verif.Model.ShellInput
import Verif.Props.ShellInput
import Verif.Model.SetFloat
import Verif.Props.SetFloat
import Verif.Props.HeapFloat
import Verif.Props.LimiterTokenRate
