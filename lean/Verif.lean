import Verif.Array.Lemmas
import Verif.Array.Model
import Verif.Array.Props
import Verif.Basic
import Verif.Coll.Buffer
import Verif.Coll.HashTable
import Verif.Coll.HashTableProps
import Verif.Coll.LinkedList
import Verif.Coll.Ring
import Verif.Conc.Affinity
import Verif.Conc.Atomic
import Verif.Conc.Jobs
import Verif.Conc.Sem
import Verif.Conc.SemOther
import Verif.Conc.Spin
import Verif.Conc.Sync
import Verif.Conc.Thread
import Verif.Conc.Tso
import Verif.Hash.Adler
import Verif.Hash.AdlerDamage
import Verif.Hash.Base64
import Verif.Hash.Crc
import Verif.Hash.CrcTables
import Verif.Hash.Fnv
import Verif.Hash.Murmur
import Verif.Math.Double
import Verif.Math.Drift
import Verif.Math.Fallback
import Verif.Math.Frustum
import Verif.Math.Half
import Verif.Math.Helpers
import Verif.Math.Interp
import Verif.Math.InterpFloat
import Verif.Math.LengthFloat
import Verif.Math.Mat
import Verif.Math.MatFloat
import Verif.Math.Project
import Verif.Math.Quat
import Verif.Math.Rect
import Verif.Math.RectFloat
import Verif.Math.Round
import Verif.Math.RoundDouble
import Verif.Math.RoundEdge
import Verif.Math.RoundFloat
import Verif.Math.Rsqrt
import Verif.Math.Single
import Verif.Math.SmoothFloat
import Verif.Math.Turn
import Verif.Math.Vec
import Verif.Math.VecReal
import Verif.Mem.Align
import Verif.Mem.Arena
import Verif.Mem.Backed
import Verif.Mem.Base
import Verif.Mem.Heap
import Verif.Mem.Pool
import Verif.Mem.Raw
import Verif.Mem.Resize
import Verif.Mem.Scratch
import Verif.Mem.Stack
import Verif.Mem.SubArena
import Verif.Mem.Words
import Verif.Parse.Adt
import Verif.Parse.AdtFree
import Verif.Parse.AdtMove
import Verif.Parse.AdtText
import Verif.Parse.AdtUp
import Verif.Parse.AdtValue
import Verif.Parse.Csv
import Verif.Parse.CsvAny
import Verif.Parse.Json
import Verif.Parse.JsonEnds
import Verif.Parse.JsonErrors
import Verif.Parse.JsonMem
import Verif.Parse.Number
import Verif.Parse.NumberDouble
import Verif.Parse.NumberPrint
import Verif.Parse.NumberReal
import Verif.Parse.ParserMem
import Verif.Parse.ParserRoom
import Verif.Parse.Regex
import Verif.Parse.RegexAll
import Verif.Parse.RegexAlt
import Verif.Parse.RegexBad
import Verif.Parse.RegexCount
import Verif.Parse.RegexLazy
import Verif.Parse.RegexOpt
import Verif.Parse.RegexPaired
import Verif.Parse.RegexSafe
import Verif.Parse.RegexStray
import Verif.Parse.SaveLoad
import Verif.Parse.Uri
import Verif.Parse.UriAny
import Verif.Parse.UriDoc
import Verif.Parse.WriteString
import Verif.Sort.Compare
import Verif.Sort.Radix
import Verif.Sort.Random
import Verif.Sort.RandomReal
import Verif.Sort.Search
import Verif.Sort.Seed
import Verif.Sort.Sort
import Verif.Str.CStr
import Verif.Str.Chars
import Verif.Str.Copy
import Verif.Str.Fprintf
import Verif.Str.Lines
import Verif.Str.Num
import Verif.Str.Print
import Verif.Str.PrintNull
import Verif.Str.PrintReal
import Verif.Str.PrintRealOver
import Verif.Str.ReadReal
import Verif.Str.Sprint
import Verif.Str.Token
import Verif.Str.Ucs2
import Verif.Str.Utf8
import Verif.Str.ZString
import Verif.Sys.Bits
import Verif.Sys.Command
import Verif.Sys.Dir
import Verif.Sys.DirFree
import Verif.Sys.EnvWin
import Verif.Sys.File
import Verif.Sys.FileWin
import Verif.Sys.Fs
import Verif.Sys.FullName
import Verif.Sys.MkDir
import Verif.Sys.Opts
import Verif.Sys.OptsPrint
import Verif.Sys.Path
import Verif.Sys.Process
import Verif.Sys.Socket
import Verif.Sys.Stream
import Verif.Sys.Tar
import Verif.Sys.TarDir
import Verif.Sys.Time
import Verif.Sys.TimeOther
import Verif.Sys.Vm
import Verif.Sys.VmPages
import Verif.Sys.WinPath
