import Mathlib.Data.Rat.Defs
import Mathlib.Algebra.Order.Field.Basic

/-!
# Model of `tf_quant_finance/examples/demos/option_pricing_basic`

Strings are lists of characters. A file system is a map from paths to contents; directories are not modelled. The remote
store is a map from buckets and names.
-/

namespace Model

/-- `gcs_path.replace('gs://', '')`. -/
def removeGs : List Char → List Char
  | 'g' :: 's' :: ':' :: '/' :: '/' :: r => removeGs r
  | c :: r => c :: removeGs r
  | [] => []

/-- `path.join(a, b)` of Python's `posixpath`. -/
def joinPath (a b : List Char) : List Char :=
  if b.head? = some '/' then b
  else if a = [] ∨ a.getLast? = some '/' then a ++ b
  else a ++ '/' :: b

/-- `path.basename`: what follows the last slash. -/
def baseName (p : List Char) : List Char := (p.reverse.takeWhile (· ≠ '/')).reverse

/-- `gcs_path.split('/')`. -/
def splitSlash : List Char → List (List Char)
  | [] => [[]]
  | c :: r =>
    if c = '/' then [] :: splitSlash r
    else match splitSlash r with
      | [] => [[c]]
      | h :: t => (c :: h) :: t

/-- Bucket and name of a file in the store, `_split_gcs_path`, `downloader/app/main.py` L145-150, and `split_bucket_path`,
`data_generator/data_generation.py` L109-114. -/
def gcsBlob (gcs : List Char) : List Char × List Char :=
  match splitSlash (removeGs gcs) with
  | [] => ([], [])
  | [b] => (b, [])
  | b :: x :: t => (b, t.foldl joinPath x)

/-- Where `upload_to_gcs` puts a local file, `data_generator/data_generation.py` L117-128. -/
def uploadBlob (outputPath file : List Char) : List Char × List Char :=
  ((gcsBlob outputPath).1, joinPath (gcsBlob outputPath).2 (baseName file))

/-- `DOWNLOAD_BASE_PATH`, `downloader/app/main.py` L43. -/
def downloadBase : List Char := "/var/tmp/downloads".toList

/-- `RESULTS_BASE_PATH`, `pricer/app/main.py` L26. -/
def resultsBase : List Char := "/var/tmp/results".toList

/-- `_local_path_from_gcs_path`, `downloader/app/main.py` L168-169. -/
def localPath (gcs : List Char) : List Char := joinPath downloadBase (removeGs gcs)

/-- `JobRequest`, L77-115. -/
structure JobRequest where
  portfolio : List Char
  market : List Char
  force : Bool

/-- `validate`, L105-115. -/
def JobRequest.validate (r : JobRequest) : Bool × List String :=
  (!r.portfolio.isEmpty && !r.market.isEmpty,
    (if r.portfolio.isEmpty then ["Portfolio file must be specified."] else []) ++
    (if r.market.isEmpty then ["Market data file must be specified."] else []))

/-- `_download_from_gcs`, L157-166; a file missing in the store is an error. -/
def download {α : Type} (store : List Char × List Char → Option α) (gcs target : List Char) (fs : List Char → Option α) :
    Except String (List Char → Option α) :=
  match store (gcsBlob gcs) with
  | some v => .ok (fun p => if p = target then some v else fs p)
  | none => .error "NotFound"

/-- `download_if_needed`, L129-143: the message, empty if there is none, and the file system. -/
def JobRequest.downloadIfNeeded {α : Type} (r : JobRequest) (store : List Char × List Char → Option α) (fs : List Char → Option α) :
    Except String (List String × (List Char → Option α)) :=
  if r.validate.1 = false then .ok (r.validate.2, fs)
  else if r.force = false ∧ (fs (localPath r.market)).isSome ∧ (fs (localPath r.portfolio)).isSome then .ok ([], fs)
  else (download store r.market (localPath r.market) fs).bind fun fs1 =>
    (download store r.portfolio (localPath r.portfolio) fs1).map fun fs2 => ([], fs2)

/-- The file of the results, `pricer/app/main.py` L77-78. -/
def resultsPath (portfolioPath : List Char) : List Char :=
  joinPath resultsBase ("results_".toList ++ baseName portfolioPath)

/-- `os.environ.get(name, default)` and the comparison with zero, `pricer/app/main.py` L40-45 and L52-53: variables of the
environment are strings. -/
def sizeFromEnvironment (value : Option String) (default : Int) : Except String (Option Int) :=
  match value with
  | none => .ok (if default ≤ 0 then none else some default)
  | some _ => .error "TypeError: '<=' not supported between instances of 'str' and 'int'"

/-- Trade numbers of a file, `data_generator/data_generation.py` L100. -/
def tradeIds (perFile start : Nat) : List Nat := (List.range perFile).map (fun k => k + start)

/-- Trade numbers of all files, L163-166. -/
def allTradeIds (numFiles perFile : Nat) : List Nat :=
  (List.range numFiles).flatMap (fun i => tradeIds perFile (i * perFile))

/-- Spot, volatility and rate of an underlier from draws in `[0, 1)`, `generate_market_data`, L73-82. -/
def marketOf {K : Type} [Field K] (u v w : K) : K × K × K := (u * 900 + 100, v * (57 / 100) + 3 / 100, w * (15 / 100))

/-- Strike from a draw in `[0, 1)`, L97-99. -/
def strikeOf {K : Type} [Field K] (spot u : K) : K := spot * (u * (8 / 10) + 6 / 10)

end Model
