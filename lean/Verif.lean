import Verif.Basic
import Verif.ListUtil
import Verif.Loop
import Verif.Containers.HashMap
import Verif.Containers.HashMapLemmas
import Verif.Containers.HashMapPatchLemmas
import Verif.Containers.HashMapProps
import Verif.Containers.HashSet
import Verif.Containers.HashSetProps
import Verif.Containers.Iteration
import Verif.Containers.IterationProps
import Verif.Containers.RelHashMap
import Verif.Containers.RelHashMapProps
import Verif.Containers.HashTree
import Verif.Containers.HashTreeProps
import Verif.Containers.NTuple
import Verif.Containers.NTupleProps
import Verif.Containers.Array
import Verif.Containers.ArrayLemmas
import Verif.Containers.ArrayProps
import Verif.Containers.ArrayMem
import Verif.Containers.ArrayMemProps
import Verif.Containers.LinkedList
import Verif.Containers.LinkedListLemmas
import Verif.Containers.LinkedListProps
import Verif.Algorithms.MergeSort
import Verif.Algorithms.MergeSortLemmas
import Verif.Algorithms.MergeSortProps
import Verif.Bytes
import Verif.Strings.Str
import Verif.Strings.StrLemmas
import Verif.Strings.StrProps
import Verif.Strings.Convert
import Verif.Strings.ConvertLemmas
import Verif.Strings.ConvertProps
import Verif.Strings.Search
import Verif.Strings.SearchSpec
import Verif.Strings.SearchLemmas
import Verif.Strings.SearchProps
import Verif.Strings.Chars
import Verif.Strings.CharsLemmas
import Verif.Strings.CharsProps
import Verif.Strings.AlphaProps
import Verif.Strings.Diff
import Verif.Strings.DiffProps
import Verif.Data.Numeral
import Verif.Data.RomanProps
import Verif.Data.HanziProps
import Verif.Data.HexProps
import Verif.Data.Base64
import Verif.Data.Base64Props
import Verif.Data.Unicode
import Verif.Data.UnicodeProps
import Verif.Data.Utf16
import Verif.Data.Utf16Props
import Verif.Strings.Readers
import Verif.Strings.ReadersProps
import Verif.Strings.ParseString
import Verif.Strings.ParseStringProps
import Verif.Data.FastSearch
import Verif.Data.FastSearchLemmas
import Verif.Data.CommonLemmas
import Verif.Data.FastSearchProps
import Verif.Data.StringU16
import Verif.Data.StringU16Props
import Verif.Data.LollyTree
import Verif.Data.LollyTreeLemmas
import Verif.Data.LollyTreeProps
import Verif.Data.TreeValueProps
import Verif.Data.TreeLife
import Verif.Data.TreeLifeLemmas
import Verif.Data.TreeLifeProps
import Verif.System.Url
import Verif.System.UrlSpec
import Verif.System.UrlLemmas
import Verif.System.UrlProps
import Verif.System.UrlParseLemmas
import Verif.System.UrlParseProps
import Verif.System.UrlNameProps
import Verif.System.UrlDeltaProps
import Verif.System.UrlAltSpec
import Verif.System.UrlAltLemmas
import Verif.System.UrlAltProps
import Verif.System.UrlAncestorProps
import Verif.System.UrlListProps
import Verif.System.UrlHomeProps
import Verif.System.UrlRootProps
import Verif.System.Alloc
import Verif.System.AllocSpec
import Verif.System.AllocLemmas
import Verif.System.AllocOwn
import Verif.System.AllocRun
import Verif.System.AllocUsed
import Verif.System.AllocProps
import Verif.Kernel.RefcountProps
import Verif.Kernel.BlackboxProps
import Verif.System.TimerProps
import Verif.System.OstreamProps
import Verif.System.Display
import Verif.System.DisplayProps
import Verif.System.FilesProps
import Verif.System.FileUrls
import Verif.Data.DigestSpec
import Verif.Data.Digest
import Verif.Data.DigestProps
import Verif.System.Http
import Verif.System.HttpProps
import Verif.Data.Uri
import Verif.Data.UriProps
import Verif.System.ProcessProps
import Verif.System.Spawn
import Verif.System.SpawnProps
import Verif.System.SpawnNetProps
import Verif.System.WinSpawn
import Verif.System.WinSpawnLemmas
import Verif.System.WinSpawnProps
import Verif.System.WinUrl
import Verif.System.WinUrlLemmas
import Verif.System.WinUrlProps
import Verif.System.WinWebProps
import Verif.System.UrlKindProps
import Verif.System.WinListProps
import Verif.System.WinHomeProps
import Verif.System.ReadDirProps
import Verif.System.WinFdProps
import Verif.System.SysUtils
import Verif.System.SysUtilsProps
import Verif.System.SharedLib
import Verif.System.SharedLibProps
import Verif.System.LocaleProps
import Verif.System.DirsProps
import Verif.System.DirsMoreProps
import Verif.System.DirsListProps
import Verif.System.MoveProps
import Verif.Kernel.RoundingProps
import Verif.System.WinLocaleProps
import Verif.System.UserProps
import Verif.System.PlaceholderProps
import Verif.System.FileUrl
import Verif.System.FileUrlProps
import Verif.Strings.Decimal
import Verif.Strings.DecimalLemmas
import Verif.Strings.DecimalText
import Verif.Strings.DecimalReadProps
import Verif.Strings.DecimalProps
import Verif.Strings.DecimalBackProps
import Verif.System.Printing
import Verif.System.PrintingProps
import Verif.System.Call
import Verif.System.CallProps
import Verif.System.Args
import Verif.System.ArgsProps
import Verif.System.AllocLib
import Verif.System.AllocLibRun
import Verif.System.AllocLibProps
import Verif.Strings.CorkProps
import Verif.System.UrlPrintLemmas
import Verif.System.UrlPrintProps
import Verif.Containers.HashGraphProps
import Verif.Containers.HashCodes
import Verif.Containers.HashCodesProps
import Verif.System.AllocDebug
import Verif.System.AllocDebugProps
import Verif.System.Clock
import Verif.System.ClockProps
import Verif.Kernel.Failure
import Verif.Kernel.FailureProps
import Verif.System.Stack
import Verif.System.StackProps
import Verif.System.Objects
import Verif.System.ObjectsProps
import Verif.Containers.ListIdentityProps
import Verif.Containers.HashMapRefsProps
import Verif.Containers.ArrayLoop
import Verif.Containers.ArrayLoopProps
import Verif.System.Threads
import Verif.System.ThreadsProps
import Verif.Containers.ListDepth
import Verif.Containers.ListDepthProps
import Verif.Kernel.MinMax
import Verif.Kernel.MinMaxProps
import Verif.Containers.GrowCost
import Verif.Containers.GrowCostProps
import Verif.Algorithms.SortSteps
import Verif.Algorithms.SortStepsProps
import Verif.Data.TreeCost
import Verif.Data.TreeCostProps
import Verif.Containers.Shared
import Verif.Containers.SharedProps
import Verif.Containers.SharedKeys
import Verif.Containers.SharedKeysProps
import Verif.Containers.Copies
import Verif.Containers.CopiesProps
import Verif.System.Results
import Verif.System.ResultsProps
import Verif.System.ProcessCost
import Verif.System.ProcessCostProps
import Verif.System.UrlCost
import Verif.System.UrlCostProps
import Verif.System.Writable
import Verif.System.WritableProps
import Verif.Containers.ProbeCost
import Verif.Containers.ProbeCostProps
import Verif.System.SpawnFail
import Verif.System.SpawnFailProps
import Verif.Kernel.Callable
import Verif.Kernel.CallableProps
import Verif.Strings.SearchCost
import Verif.Strings.SearchCostProps
import Verif.System.SharedBuf
import Verif.System.SharedBufProps
import Verif.Containers.ListCost
import Verif.Containers.ListCostProps
import Verif.System.Globals
import Verif.System.GlobalsProps
import Verif.Data.Views
import Verif.Data.ViewsProps
import Verif.Data.ViewLife
import Verif.Data.ViewLifeProps
import Verif.Data.SearcherLife
import Verif.Data.SearcherLifeProps
import Verif.System.UrlHomeValueProps
import Verif.Containers.SelfLoops
import Verif.Containers.SelfLoopsProps
import Verif.Strings.CString
import Verif.Strings.CStringProps
import Verif.Data.SearcherCost
import Verif.Data.SearcherCostLemmas
import Verif.Data.SearcherCostProps
import Verif.Strings.LongStr
import Verif.Strings.LongStrProps
import Verif.Strings.Positions
import Verif.Strings.PositionsProps
import Verif.Containers.HashThrow
import Verif.Containers.HashThrowProps
import Verif.Containers.ArrayThrow
import Verif.Containers.ArrayThrowProps
import Verif.Containers.HashSetThrow
import Verif.Containers.HashSetThrowProps
import Verif.Strings.DecimalLocale
import Verif.Strings.DecimalLocaleLemmas
import Verif.Strings.DecimalLocaleProps
import Verif.Containers.RelThrow
import Verif.Containers.RelThrowLemmas
import Verif.Containers.RelThrowProps
import Verif.Algorithms.SortThrow
import Verif.Algorithms.SortThrowLemmas
import Verif.Algorithms.SortThrowProps
import Verif.Containers.HashFunc
import Verif.Containers.HashFuncProps
import Verif.Containers.ListThrow
import Verif.Containers.ListThrowLemmas
import Verif.Containers.ListThrowProps
import Verif.Containers.ListThrowMore
import Verif.Containers.ListThrowMoreProps
import Verif.Algorithms.SortInt
import Verif.Algorithms.SortIntProps
import Verif.Algorithms.SortInt2
import Verif.Algorithms.SortInt2Props
import Verif.Algorithms.SortAlias
import Verif.Algorithms.SortAliasLemmas
import Verif.Algorithms.SortAliasProps
import Verif.System.OstreamEq
import Verif.System.OstreamEqProps
import Verif.Data.Uuid
import Verif.Data.UuidProps
import Verif.Containers.RelLayers
import Verif.Containers.RelLayersProps
