import Verif.Wire.Props
import Verif.Prim.Props
import Verif.Eval.Props
import Verif.Scaling.Props
import Verif.Bits.RoundTrip
import Verif.Bits.Solid
import Verif.Registry.Props
import Verif.Serial.Struct
import Verif.Serial.StringPrim
import Verif.Protocol.Fields
import Verif.Protocol.CopyOk
import Verif.Protocol.CopyProps
import Verif.Protocol.CopyFails
import Verif.Protocol.Shadow
import Verif.Protocol.Json
import Verif.Message.Framing
import Verif.Event.Emit
import Verif.Env.Command
import Verif.Tftp.Write
import Verif.Tftp.Path
import Verif.Http.Header
import Verif.Telnet
import Verif.Json.Handlers
import Verif.Net.Backoff
import Verif.Net.Connection
import Verif.Net.Manager
import Verif.Task
import Verif.Arbiter.Stages
import Verif.Env.CommandQueue
import Verif.Server.Traverse
import Verif.Server.TabsClaims
import Verif.Server.FilesClaims
import Verif.Http.Client
import Verif.Net.Incoming
import Verif.Codec.SystemClaims
import Verif.Arbiter.Names
import Verif.Net.PipesClaims
import Verif.LogCapture
import Verif.Net.Restart
import Verif.Control.Stepper
import Verif.Net.Datagrams
import Verif.Net.Telemetry
import Verif.Arbiter.Config
import Verif.Arbiter.Startup
import Verif.Arbiter.Search
import Verif.Net.Websocket
import Verif.Arbiter.Ports
import Verif.Server.UiCount
import Verif.Env.Remote
import Verif.Event.Record
import Verif.Net.Mirror
import Verif.Tftp.Endpoints
import Verif.Server.Controls
import Verif.Tui.Channels
import Verif.Server.Pages
import Verif.Server.WindowHash
import Verif.Server.Points
import Verif.Server.Plots
import Verif.Arbiter.Housekeeping
import Verif.Server.Table
import Verif.Task.Stop
import Verif.Prim.Float
import Verif.Scaling.Floating
import Verif.Task.Timing
import Verif.Task.Driven
import Verif.Net.PeerEnd
import Verif.Arbiter.Leaving
import Verif.Net.Connect
import Verif.Json.Browser
import Verif.Json.BrowserExchange
import Verif.Server.Slider
import Verif.Server.Pacing
import Verif.Server.Overlay
import Verif.Server.Filters
import Verif.Server.PageStart
import Verif.Server.Boxes
import Verif.Net.Hosts
import Verif.Server.Logs
import Verif.Arbiter.Structs
import Verif.Server.Prefixes
import Verif.Net.Tls
import Verif.Server.Scripts
import Verif.Names
import Verif.Task.Flush
import Verif.Net.Served
import Verif.Arbiter.Programs
import Verif.Arbiter.Apps
import Verif.Server.Divider
import Verif.Server.Audio
import Verif.Env.Defaults
import Verif.Env.Typed
import Verif.Eval.Scaled
import Verif.Net.Script
import Verif.Prim.Reentrant
import Verif.Task.Group
import Verif.Registry.PyEnum
import Verif.Net.Scoped
import Verif.Env.Shared
import Verif.Metrics
import Verif.Finalize
import Verif.Cursor
import Verif.Lines
import Verif.Device.Np05b
import Verif.Device.Np05bProps
import Verif.Device.Scpi
import Verif.Env.Array
import Verif.Env.LoadClaims
