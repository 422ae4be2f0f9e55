import Verif.Utf8.Props
import Verif.Topic.Props
import Verif.Acl.Props
import Verif.IdPool.Props
import Verif.Increment.Props
import Verif.Subscription.Props
import Verif.Base64.Props
import Verif.Hdlc.Props
import Verif.Crc32.Props
import Verif.Checked.Props
import Verif.Mqtt.Accepted
import Verif.Mqtt.Stream
import Verif.Msg.Stream
import Verif.Fifo.Props
import Verif.HttpUtil.Props
import Verif.Condition.Props
import Verif.Types.Access
import Verif.Websocket.Props
import Verif.Modbus.Props
import Verif.Discern.Route
import Verif.Mmap.Reuse
import Verif.Channel.Empty
import Verif.Slot.Refs
import Verif.Session.RecvProps
import Verif.Session.SendProps
import Verif.Session.FlightProps
import Verif.Session.OrderProps
import Verif.Session.RepeatProps
import Verif.Broker.Examples
import Verif.Http.Model
import Verif.Http.Stable
import Verif.Http.HeaderLemmas
import Verif.Http.PieceProps
import Verif.Http.MessageProps
import Verif.Http.ChunkProps
import Verif.Http.CrashLemmas
import Verif.Http.Examples
import Verif.Pfifo.Model
import Verif.Pfifo.Spec
import Verif.Pfifo.Lemmas
import Verif.Pfifo.Ops
import Verif.Pfifo.Ops2
import Verif.Pfifo.Ops3
import Verif.Pfifo.World
import Verif.Pfifo.Props
import Verif.Pfifo.Examples
import Verif.Hub.Model
import Verif.Hub.Spec
import Verif.Hub.Lemmas
import Verif.Hub.Steps
import Verif.Hub.Props
import Verif.Hub.Examples
import Verif.Wake.Model
import Verif.Wake.Spec
import Verif.Wake.Lemmas
import Verif.Wake.Props
import Verif.Wake.Examples
import Verif.Route.Model
import Verif.Route.Props
import Verif.Asd.Model
import Verif.Asd.Spec
import Verif.Asd.Lists
import Verif.Asd.Lemmas
import Verif.Asd.Room
import Verif.Asd.Progress
import Verif.Asd.Props
import Verif.Cacher.Model
import Verif.Cacher.Spec
import Verif.Cacher.Props
import Verif.Msgdb.Model
import Verif.Msgdb.Spec
import Verif.Msgdb.Lemmas
import Verif.Msgdb.Props
import Verif.Msgdb.Walk
import Verif.Sha256.Model
import Verif.Sha256.Spec
import Verif.Sha256.Props
import Verif.Msgdb.Hash
import Verif.Udpstream.Model
import Verif.Udpstream.Lemmas
import Verif.Udpstream.Invariant
import Verif.Udpstream.Props
import Verif.Udpstream.Resend
import Verif.Udpstream.Streams
import Verif.Udpstream.StreamProps
import Verif.Udpstream.Wire
import Verif.Udpstream.WireProps
import Verif.SendLoop.Model
import Verif.SendLoop.Props
import Verif.ArrayTree.Model
import Verif.ArrayTree.Spec
import Verif.ArrayTree.Fields
import Verif.ArrayTree.Texts
import Verif.ArrayTree.Refine
import Verif.ArrayTree.Trees
import Verif.ArrayTree.Safe
import Verif.ArrayTree.Stable
import Verif.ArrayTree.Props
import Verif.ArrayDef.Model
import Verif.ArrayDef.Spec
import Verif.ArrayDef.Fields
import Verif.ArrayDef.Texts
import Verif.ArrayDef.Nodes
import Verif.ArrayDef.Trees
import Verif.ArrayDef.Props
import Verif.Chunk.Model
import Verif.Chunk.Spec
import Verif.Chunk.Client
import Verif.Chunk.Transport
import Verif.Chunk.Progress
import Verif.Chunk.Props
import Verif.AclFile.Model
import Verif.AclFile.Spec
import Verif.AclFile.Lines
import Verif.AclFile.Parts
import Verif.AclFile.Blocks
import Verif.AclFile.Props
import Verif.Config.Model
import Verif.Config.Spec
import Verif.Config.Names
import Verif.Config.Settings
import Verif.Config.File
import Verif.Config.Rest
import Verif.Config.Props
import Verif.Sha1.Model
import Verif.Sha1.Spec
import Verif.Sha1.Props
import Verif.Convert.Model
import Verif.Convert.Spec
import Verif.Convert.Lemmas
import Verif.Convert.Props
import Verif.Influx.Model
import Verif.Influx.Spec
import Verif.Influx.Props
import Verif.Exploder.Model
import Verif.Exploder.Props
import Verif.Averager.Model
import Verif.Averager.Spec
import Verif.Averager.Props
import Verif.MmapColl.Model
import Verif.MmapColl.Spec
import Verif.MmapColl.Lemmas
import Verif.MmapColl.Inv
import Verif.MmapColl.Props
import Verif.Settings.Model
import Verif.Settings.Spec
import Verif.Settings.Lemmas
import Verif.Settings.Props
import Verif.Shm.Model
import Verif.Shm.Spec
import Verif.Shm.Lemmas
import Verif.Shm.Inv
import Verif.Shm.Props
import Verif.Cmdline.Model
import Verif.Cmdline.Spec
import Verif.Cmdline.Lemmas
import Verif.Cmdline.Props
import Verif.Startup.Model
import Verif.Startup.Spec
import Verif.Startup.Lemmas
import Verif.Startup.Props
import Verif.Passwd.Model
import Verif.Passwd.Spec
import Verif.Passwd.Lemmas
import Verif.Passwd.Auth
import Verif.Passwd.Plain
import Verif.Passwd.Tool
import Verif.Json.Model
import Verif.Json.Spec
import Verif.Json.Lemmas
import Verif.Json.Arrays
import Verif.Json.Objects
import Verif.Fixp.Model
import Verif.Fixp.Spec
import Verif.Fixp.Lemmas
import Verif.Fixp.Read
import Verif.Fixp.Convert
import Verif.Multipart.Model
import Verif.Multipart.Spec
import Verif.Multipart.Split
import Verif.Multipart.Props
import Verif.Multipart.Header
import Verif.Multipart.Form
import Verif.Threads.Props
import Verif.Threads.Start
import Verif.Stats.Props
import Verif.Stats.Tree
import Verif.Uri.Props
import Verif.AltSvc.Select
import Verif.Form.Props
import Verif.LogHook.Props
import Verif.Env.Props
import Verif.Fork.Props
import Verif.Mysql.Props
import Verif.Redirect.Props
import Verif.Journal.Props
import Verif.Nullsafe.Props
import Verif.HttpQueue.Props
import Verif.MqttClient.Props
import Verif.MqttReceive.Props
import Verif.StrBuild.Props
import Verif.MqttAck.Props
