import Verif.Base
import Verif.Spec
import Verif.Contract
import Verif.Model.StringStream
import Verif.Proofs.StringStream
import Verif.Props.StringStream
import Verif.Props.Pointers
import Verif.Props.StringMemory
import Verif.Model.BaseSkip
import Verif.Model.BufferedStream
import Verif.ProducerSpec
import Verif.Proofs.BufferedStream
import Verif.Proofs.BaseSkip
import Verif.Props.BufferedStream
import Verif.Proofs.SubInputStream
import Verif.Props.SubInputStream
import Verif.Props.FileStreams
import Verif.Props.Kmp
import Verif.Props.StringTerminated
import Verif.Props.DataEvent
import Verif.Proofs.Base64
import Verif.Props.Base64
import Verif.Proofs.TextUtils
import Verif.Props.TextUtils
import Verif.Props.Cpio
import Verif.Props.Ar
import Verif.Props.Tar
import Verif.Props.Decompress
import Verif.Props.Magic
import Verif.Props.Signature
import Verif.Props.MailText
import Verif.Props.Sdf
import Verif.Props.Sniff
import Verif.Props.Zip
import Verif.Props.Mail
import Verif.Props.Iconv
import Verif.Props.Listing
import Verif.Props.DirLister
import Verif.Props.ArchiveReader
import Verif.Props.Ole
import Verif.Props.OleExamples
import Verif.Props.Process
import Verif.Props.ProcessErrors
import Verif.Props.Lzma
import Verif.Props.Rpm
import Verif.Props.GZipCompress
import Verif.Props.LzmaDec
import Verif.Props.LzmaPending
import Verif.Props.LzmaAny
import Verif.Props.LzmaSafe
import Verif.Props.RpmSafe
import Verif.Props.Opener
import Verif.Props.Compat
import Verif.Props.ArchiveSafe
import Verif.Props.UnpackSafe
import Verif.Props.SdfSafe
import Verif.Props.MailSafe
import Verif.Props.Nest
import Verif.Props.Isolate
import Verif.Props.Cut
import Verif.Props.TarCut
import Verif.Props.ZipCut
import Verif.Props.ArCut
import Verif.Props.TellsErrors
import Verif.Props.MMapErrors
import Verif.Props.Buffer32
import Verif.Props.SkipNegative
import Verif.Props.IconvState
import Verif.Props.HeaderConv
import Verif.Props.Lifecycle
import Verif.Props.Messages
import Verif.Props.ReaderHistory
import Verif.Props.Openers
import Verif.Model.SubStreams
import Verif.WalkSpec
import Verif.Proofs.SubStreams
import Verif.Proofs.SubMail
import Verif.Props.SubStreams
import Verif.WalkSafeSpec
import Verif.Proofs.SubSafe
import Verif.Props.SubSafe
import Verif.Props.Ownership
import Verif.Props.EntryOwnership
