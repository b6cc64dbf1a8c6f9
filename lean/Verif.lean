import Verif.Go.Basic
import Verif.Go.Path
import Verif.Go.Strings
import Verif.Go.Url
import Verif.Model.Cmd
import Verif.Model.CmdLine
import Verif.Model.Concurrent
import Verif.Model.ContentPath
import Verif.Model.Create
import Verif.Model.Declaration
import Verif.Model.Detail
import Verif.Model.DirectClean
import Verif.Model.DirectCleanConc
import Verif.Model.Display
import Verif.Model.DisplayLink
import Verif.Model.DisplayReport
import Verif.Model.Echo
import Verif.Model.Enumerate
import Verif.Model.ExtLoad
import Verif.Model.Extract
import Verif.Model.FS
import Verif.Model.Filesystem
import Verif.Model.FollowUp
import Verif.Model.Inventory
import Verif.Model.InventoryLemmas
import Verif.Model.Json
import Verif.Model.JsonL
import Verif.Model.JsonLemmas
import Verif.Model.JsonRound
import Verif.Model.Layout
import Verif.Model.LayoutConfig
import Verif.Model.LayoutLemmas
import Verif.Model.Load
import Verif.Model.LoadLemmas
import Verif.Model.Manager
import Verif.Model.MetaFile
import Verif.Model.MetaJson
import Verif.Model.Metadata
import Verif.Model.Mets
import Verif.Model.Migration
import Verif.Model.Names
import Verif.Model.ObjCheck
import Verif.Model.OneObject
import Verif.Model.Reader
import Verif.Model.Report
import Verif.Model.Root
import Verif.Model.RootCheck
import Verif.Model.RootInit
import Verif.Model.Session
import Verif.Model.SessionLemmas
import Verif.Model.Settings
import Verif.Model.Stat
import Verif.Model.StateLemmas
import Verif.Model.StoreLemmas
import Verif.Model.Stream
import Verif.Model.Thumbnail
import Verif.Model.Validate
import Verif.Model.ValidateLemmas
import Verif.Model.VersionNames
import Verif.Props.AcceptedInventory
import Verif.Props.AcceptedNames
import Verif.Props.AcceptedObject
import Verif.Props.AddedFile
import Verif.Props.Alike
import Verif.Props.Archive
import Verif.Props.ArchiveAdded
import Verif.Props.ArchiveAuto
import Verif.Props.ArchiveDamage
import Verif.Props.ArchiveLoss
import Verif.Props.ArchiveValid
import Verif.Props.Asked
import Verif.Props.Automated
import Verif.Props.CleanVersion
import Verif.Props.Cmd
import Verif.Props.CmdLine
import Verif.Props.Compare
import Verif.Props.Concurrent
import Verif.Props.Content
import Verif.Props.ContentMatch
import Verif.Props.Conversions
import Verif.Props.Crash
import Verif.Props.Create
import Verif.Props.Damage
import Verif.Props.Declaration
import Verif.Props.Decrypt
import Verif.Props.Dedup
import Verif.Props.DefaultConfig
import Verif.Props.Detail
import Verif.Props.Determinism
import Verif.Props.DigestCase
import Verif.Props.DirectClean
import Verif.Props.DirectCleanChars
import Verif.Props.DirectCleanConc
import Verif.Props.DiskArchive
import Verif.Props.Display
import Verif.Props.DisplayExt
import Verif.Props.DisplayLink
import Verif.Props.DisplayNumbers
import Verif.Props.DisplayReport
import Verif.Props.Enumerate
import Verif.Props.ExtLoad
import Verif.Props.Extract
import Verif.Props.ExtractAccepted
import Verif.Props.ExtractHistory
import Verif.Props.Filesystem
import Verif.Props.FilesystemRead
import Verif.Props.Fixity
import Verif.Props.FollowUp
import Verif.Props.ForeignUpdate
import Verif.Props.Fullpath
import Verif.Props.Json
import Verif.Props.JsonL
import Verif.Props.Layout
import Verif.Props.LayoutApart
import Verif.Props.LayoutConfig
import Verif.Props.LayoutCrash
import Verif.Props.LayoutDocs
import Verif.Props.LayoutText
import Verif.Props.Life
import Verif.Props.Loss
import Verif.Props.Manager
import Verif.Props.ManifestOnce
import Verif.Props.MetaFile
import Verif.Props.MetaJson
import Verif.Props.MetaSchema
import Verif.Props.Metadata
import Verif.Props.Mets
import Verif.Props.MetsDocs
import Verif.Props.MetsEx
import Verif.Props.MetsPrimary
import Verif.Props.MetsStore
import Verif.Props.MgrConfig
import Verif.Props.Migration
import Verif.Props.MigrationOnce
import Verif.Props.Mirror
import Verif.Props.Names
import Verif.Props.NoCrash
import Verif.Props.NoFalseAlarm
import Verif.Props.ObjAccepted
import Verif.Props.ObjCheck
import Verif.Props.ObjectNames
import Verif.Props.OkSteps
import Verif.Props.OneObject
import Verif.Props.OwnValid
import Verif.Props.PathChecks
import Verif.Props.Paths
import Verif.Props.Processes
import Verif.Props.Reader
import Verif.Props.Readme
import Verif.Props.Repeat
import Verif.Props.Replace
import Verif.Props.Report
import Verif.Props.ReportText
import Verif.Props.Retry
import Verif.Props.Root
import Verif.Props.RootCheck
import Verif.Props.RootInit
import Verif.Props.RoundTrip
import Verif.Props.Rounds
import Verif.Props.Sessions
import Verif.Props.Settings
import Verif.Props.SpecVersion
import Verif.Props.Stat
import Verif.Props.State
import Verif.Props.Stored
import Verif.Props.Stream
import Verif.Props.StringKeys
import Verif.Props.Thumbnail
import Verif.Props.Validate
import Verif.Props.Versions
import Verif.Spec
