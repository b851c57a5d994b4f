import Verif.Sixpack.Props
import Verif.Num.Props
import Verif.Entry.Props
import Verif.Map.Shift
import Verif.Cache.Props
import Verif.Cache.Small
import Verif.Cache.Collide
import Verif.Cache.Effect
import Verif.Cache.Tokens
import Verif.Cache.Cursor
import Verif.Conc.Deadlock
import Verif.Conc.Refs
import Verif.Glob.Props
import Verif.Crc.Props
import Verif.Save.Restore
import Verif.Save.Damage
import Verif.Save.Atomic
import Verif.Save.Term
import Verif.Resp.Props
import Verif.Resp.Reply
import Verif.Resp.Inline
import Verif.Resp.Bounds
import Verif.Mc.Props
import Verif.Mc.Bounds
import Verif.Cmd.TableProps
import Verif.Cmd.Link
import Verif.Cmd.Keys
import Verif.Cmd.Multi
import Verif.Cmd.SetOpt
import Verif.Cmd.McStore
import Verif.Http.Props
import Verif.Pg.Pmap
import Verif.Pg.Props
import Verif.Pg.Unicode
import Verif.Args.Props
import Verif.Cmd.Single
import Verif.Cmd.McGet
import Verif.Conn.Props
import Verif.Net.Admit
import Verif.Net.Tls
import Verif.Net.Cmap
import Verif.Net.Out
import Verif.Net.Uring
import Verif.Main.Options
import Verif.Main.Short
import Verif.Main.Monitor
import Verif.Main.MonSession
import Verif.Cmd.Admin
import Verif.Cmd.Safe
import Verif.Cmd.OneReply
import Verif.Cmd.Scan
import Verif.Cmd.AdminProps
import Verif.Net.Bg
import Verif.Http.Response
import Verif.Mc.Reply
import Verif.Cmd.PgReply
import Verif.Pg.Reply
import Verif.Pg.ReplyProps
import Verif.Pg.Extended
import Verif.Pg.Login
import Verif.Net.Loop
import Verif.Net.LoopInv
import Verif.Net.LoopProps
import Verif.Cmd.Service
import Verif.Pg.Service
import Verif.Pg.Portal
import Verif.Hashmap.Props
import Verif.Lz4.Decompress
import Verif.Lz4.Copy
import Verif.Lz4.Step
import Verif.Lz4.Decode
import Verif.Lz4.Compress
import Verif.Lz4.Count
import Verif.Lz4.Encode
import Verif.Lz4.Codec
import Verif.Lz4.Oversize
import Verif.Cmd.ScanCmd
import Verif.Cmd.Stats
import Verif.Net.LoopBroken
import Verif.Net.TlsIo
import Verif.Cache.Autosweep
import Verif.Cache.Lowmem
import Verif.Cmd.Full
import Verif.Main.Memlimit
import Verif.Main.Sys
import Verif.Main.Xmalloc
import Verif.Cross.Examples
import Verif.Wire.Examples
import Verif.Net.Count
import Verif.Cross.Stats
import Verif.McWire.Examples
import Verif.Many.Examples
import Verif.Many.RestartExamples
import Verif.Many.LiveExamples
import Verif.Mix.Examples
import Verif.Low.Examples
import Verif.Mix.Restart
import Verif.Mix.RestartExamples
import Verif.Mix.EndsExamples
import Verif.Mix.LiveExamples
import Verif.Mix.LiveEndsExamples
import Verif.Cache.Overwrite
import Verif.Conc.Batches
import Verif.Hash.Flood
import Verif.Save.Grammar
import Verif.Glob.Time
import Verif.Cmd.ScanGrow
import Verif.Mc.Auth
