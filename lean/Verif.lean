import Verif.Common.Bits
import Verif.BitStream.Props
import Verif.BitStream.Reuse
import Verif.Base64.Props
import Verif.Unicode.Props
import Verif.Unicode.Unescape
import Verif.Unicode.EscapeExact
import Verif.Str.Props
import Verif.Str.Text
import Verif.Str.Floats
import Verif.Format.Arguments
import Verif.Task.Lifecycle
import Verif.Task.Locks
import Verif.PathMonitor.Mac
import Verif.PathMonitor.Win
import Verif.Json.OldFloats
import Verif.Str.LexerExact
import Verif.Str.WildcardExact
import Verif.Str.Memory
import Verif.Str.Cursor
import Verif.Str.Replace
import Verif.Numeric.Props
import Verif.Net.Props
import Verif.Net.Order
import Verif.Net.Exact4
import Verif.Net.Exact6
import Verif.Net.Arrays
import Verif.Conc.Props
import Verif.Conc.Live
import Verif.Task.Props
import Verif.Task.Live
import Verif.Task.Stop
import Verif.Task.Release
import Verif.Socket.Release
import Verif.Task.After
import Verif.Task.Gone
import Verif.Huffman.Props
import Verif.Huffman.Accept
import Verif.Huffman.Optimal
import Verif.Huffman.Memory
import Verif.Huffman.Reference
import Verif.Huffman.Reuse
import Verif.Huffman.Overflow
import Verif.Json.Props
import Verif.Json.Canon
import Verif.Json.Capacity
import Verif.Json.ConvertProps
import Verif.Json.Built
import Verif.Json.Braces
import Verif.Json.Exchange
import Verif.Json.MergeMove
import Verif.Json.MoreBuilt
import Verif.Json.Containers
import Verif.Json.MoreOpsProps
import Verif.Json.Exceptions
import Verif.Json.RangeError
import Verif.Json.WorldLoops
import Verif.Json.WarnProps
import Verif.Json.Reverse
import Verif.Ini.Props
import Verif.Ini.Lines
import Verif.Parser.Props
import Verif.Format.Props
import Verif.Format.FloatAlt
import Verif.Format.User
import Verif.Format.UserProps
import Verif.Coder.Model
import Verif.Coder.Props
import Verif.Logger.Props
import Verif.Logger.ThreadsProps
import Verif.Logger.EndToEnd
import Verif.Logger.Crash
import Verif.Logger.Default
import Verif.Socket.Props
import Verif.Socket.Listen
import Verif.Socket.Wire
import Verif.Socket.Select
import Verif.Socket.Network
import Verif.Socket.Views
import Verif.Socket.Connect
import Verif.Socket.Reuse
import Verif.Config.Files
import Verif.Config.Lifetime
import Verif.Config.LifetimeProps
import Verif.Config.LifetimeRunner
import Verif.Config.Settings
import Verif.PathMonitor.Props
import Verif.PathMonitor.Buffer
import Verif.PathMonitor.Lock
import Verif.PathMonitor.Destroy
import Verif.System.Props
import Verif.System.PollProps
import Verif.System.Rounded
import Verif.Styler.Props
import Verif.Styler.Nested
import Verif.Styler.Win
import Verif.Format.Stream
import Verif.Format.Plain
import Verif.Assert.Props
import Verif.System.Signals
import Verif.System.Others
import Verif.System.OtherPollProps
import Verif.System.Text
import Verif.Socket.Winsock
import Verif.Socket.WinIo
import Verif.Socket.Mode
import Verif.Socket.WinConnect
import Verif.Socket.Identity
import Verif.Socket.BindProps
import Verif.Json.Alias
import Verif.Json.AliasMerge
import Verif.Unicode.Memory
import Verif.Json.InPlace
import Verif.Json.Depth
import Verif.Json.DepthWrite
import Verif.Json.Cost
import Verif.Json.ParserInts
import Verif.Json.DepthUse
