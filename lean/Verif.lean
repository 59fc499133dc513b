import Verif.Basic
import Verif.Varint.Props
import Verif.Encode.Props
import Verif.StringId.Props
import Verif.Num.Props
import Verif.Wal.Props
import Verif.Time.Props
import Verif.Expire.Reconstruct
import Verif.Label.Props
import Verif.Incr.Props
import Verif.Block.MapProps
import Verif.Block.IncrProps
import Verif.Block.ChecksumProps
import Verif.Archive.FindProps
import Verif.Archive.PushProps
import Verif.StrLst.AntiProps
import Verif.Archive.QueueProps
import Verif.Archive.StatusProps
import Verif.Archive.AsyncProps
import Verif.Archive.GetProps
import Verif.Archive.NeedProps
import Verif.Restore.SelectProps
import Verif.Restore.SetProps
import Verif.Restore.TimelineProps
import Verif.Lst.Props
import Verif.Lock.Props
import Verif.Lock.CmdProps
import Verif.Control.Props
import Verif.Parallel.Props
import Verif.Backup.JobProps
import Verif.Restore.JobProps
import Verif.Backup.PageProps
import Verif.Backup.ResumeProps
import Verif.Fs.Props
import Verif.Fs.Seq
import Verif.Info.LoadProps
import Verif.Backup.CompleteProps
import Verif.Backup.DurableProps
import Verif.Json.Props
import Verif.Info.IniProps
import Verif.Info.PgProps
import Verif.Stanza.Props
import Verif.Manifest.PackProps
import Verif.Manifest.SaveThms
import Verif.Manifest.LinkProps
import Verif.Manifest.UnlogProps
import Verif.Restore.CleanProps
import Verif.Storage.MultiProps
import Verif.Restore.FileProps
import Verif.Backup.FileProps
import Verif.Restore.RemapProps
import Verif.Restore.CrashExamples
import Verif.Manifest.BuildExamples
import Verif.Config.NameExamples
import Verif.Config.NameTable
import Verif.Verify.Examples
import Verif.Io.SeekProps
import Verif.Io.ReadExamples
import Verif.Pack.Props
import Verif.Protocol.Props
import Verif.Protocol.ServerProps
import Verif.Storage.ItrProps
import Verif.Storage.PrefixProps
import Verif.Storage.ObjProps
import Verif.Http.RespExamples
import Verif.Http.MultiMain
import Verif.Storage.BatchMain
import Verif.Http.QueryProps
import Verif.Wait.Props
import Verif.Http.ProcessProps
