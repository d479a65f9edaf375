import Mathlib.Data.Real.Basic
import Mathlib.Data.List.Lex
import Mathlib.Data.Char
import Mathlib.Data.Prod.Lex
import Mathlib.Order.Lattice

/-!
# The benchmark report (`scripts/generate_benchmark_report.py`)

Texts are lists of characters, medians are real numbers.  Not modelled: the command line (l.47-62), the parsing of
the JSON files (the reports are given as values, in the order of the file names), the translation of line ends by
`read_text`/`write_text`, and the number formats `:.1f`, which are a parameter.
-/

set_option autoImplicit false

namespace Lamberthub.Report

abbrev Text := List Char

/-- What may stop the script: `FileNotFoundError` (l.72), `re.error` (a bad escape in the replacement text of
`pattern.sub`, l.273), `IndexError` (l.267), `ValueError` (`max` of nothing, l.178). -/
inductive Err where
  | fileNotFound | reError | indexError | valueError
  deriving DecidableEq

/-- L.11. -/
def startMarker : Text := "<!-- performance-comparison:start -->".toList
/-- L.12. -/
def endMarker : Text := "<!-- performance-comparison:end -->".toList
/-- L.13. -/
def sectionTitle : Text := "## Performance comparison".toList

/-- L.15-22. -/
def groupTitles : List (Text × Text) :=
  [("zero-rev-nominal".toList, "Zero-revolution nominal cases".toList),
   ("zero-rev-general".toList, "Zero-revolution general cases".toList),
   ("zero-rev-hyperbolic".toList, "Zero-revolution hyperbolic cases".toList),
   ("multi-rev-m1".toList, "One-revolution branch cases".toList),
   ("multi-rev-hard".toList, "Near-minimum-energy multi-revolution cases".toList),
   ("robust-zero-rev".toList, "Near-tangent robustness cases".toList)]

/-- L.24-43. -/
def caseTitleOverrides : List (Text × Text) :=
  [("battin-book".toList, "Battin book".toList), ("curtiss-book".toList, "Curtiss book".toList),
   ("vallado-book".toList, "Vallado book".toList), ("gmat-prograde".toList, "GMAT hyperbolic".toList),
   ("gmat-retrograde".toList, "GMAT hyperbolic".toList),
   ("der-article-i-prograde-low".toList, "Der article I".toList),
   ("der-article-i-retrograde-high".toList, "Der article I".toList),
   ("der-article-ii-prograde-high".toList, "Der article II".toList),
   ("der-article-ii-retrograde-high".toList, "Der article II".toList),
   ("prograde-high".toList, "Der article II".toList), ("prograde-low".toList, "Der article II".toList),
   ("retrograde-high".toList, "Der article II".toList), ("retrograde-low".toList, "Der article II".toList),
   ("m1-prograde-high".toList, "Near-minimum-energy".toList), ("m1-prograde-low".toList, "Near-minimum-energy".toList),
   ("m2-prograde-high".toList, "Near-minimum-energy".toList), ("m2-prograde-low".toList, "Near-minimum-energy".toList),
   ("near-tangent-prograde-high".toList, "Near tangent".toList)]

/-- The entries of a case the script reads. -/
structure Case where
  name : Text
  M : ℤ
  isPrograde : Bool
  isLowPath : Bool
  deriving DecidableEq

/-- The entries of the statistics the script reads. -/
structure Stats where
  median : ℝ
  mean : ℝ
  iqr : ℝ
  rounds : ℕ

/-- One entry of the list `benchmarks` of a report; `solver` is the text stored by pytest-benchmark. -/
structure Benchmark where
  group : Text
  solver : Text
  case : Case
  stats : Stats

/-- The entries of a report the script reads; `none` is a missing entry. -/
structure Report where
  benchmarks : List Benchmark
  commit : Option Text
  cpu : Option Text
  python : Option Text
  system : Option Text

/-- L.65-73, `load_reports`, on the parsed files. -/
def loadReports (files : List Report) : Except Err (List Report) :=
  if files = [] then .error .fileNotFound else .ok files

/-- `str.find`: the text before and after the first occurrence of `m`. -/
def splitFirst (m : Text) : Text → Option (Text × Text)
  | [] => if m = [] then some ([], []) else none
  | c :: cs =>
    if m <+: c :: cs then some ([], (c :: cs).drop m.length)
    else (splitFirst m cs).map fun p => (c :: p.1, p.2)

/-- `m in s`. -/
def contains (m s : Text) : Bool := (splitFirst m s).isSome

/-- The class `[a-zA-Z0-9_]`. -/
def isWord (c : Char) : Bool :=
  ('a' ≤ c && c ≤ 'z') || ('A' ≤ c && c ≤ 'Z') || ('0' ≤ c && c ≤ '9') || c == '_'

/-- L.79: `re.search(r"<function ([a-zA-Z0-9_]+) ", solver)`, the group.  A blank is not a word character, so the
greedy repetition never has to give characters back. -/
def searchFunction : Text → Option Text
  | [] => none
  | c :: cs =>
    let pre := "<function ".toList
    if pre <+: c :: cs then
      let tail := (c :: cs).drop pre.length
      let w := tail.takeWhile isWord
      if w ≠ [] ∧ (tail.dropWhile isWord).head? = some ' ' then some w else searchFunction cs
    else searchFunction cs

/-- L.76-82, `solver_name`. -/
def solverName (b : Benchmark) : Text := (searchFunction b.solver).getD b.solver

/-- L.85-93, `case_key`. -/
def caseKey (b : Benchmark) : Case := b.case

/-- `str.title()` on ASCII letters: a letter is upper case exactly when it does not follow a letter. -/
def pyTitle (prev : Bool) : Text → Text
  | [] => []
  | c :: cs => (if prev then c.toLower else c.toUpper) :: pyTitle c.isAlpha cs

/-- `name.replace("-", " ").title()`, l.101 and l.116. -/
def readable (name : Text) : Text := pyTitle false (name.map fun c => if c = '-' then ' ' else c)

/-- L.96-101, `case_title`. -/
def caseTitle (c : Case) : Text := (caseTitleOverrides.lookup c.name).getD (readable c.name)

/-- L.104-106, `case_prograde`. -/
def casePrograde (c : Case) : Text := if c.isPrograde then "Yes".toList else "No".toList

/-- L.109-111, `case_path`. -/
def casePath (c : Case) : Text := if c.isLowPath then "low".toList else "high".toList

/-- L.114-116, `group_title`. -/
def groupTitle (g : Text) : Text := (groupTitles.lookup g).getD (readable g)

section
variable {α κ β : Type}

/-- `d.setdefault(k, []).append(x)` on a dictionary of lists, in insertion order. -/
def addTo [DecidableEq κ] (k : κ) (x : α) : List (κ × List α) → List (κ × List α)
  | [] => [(k, [x])]
  | (k', xs) :: d => if k' = k then (k', xs ++ [x]) :: d else (k', xs) :: addTo k x d

/-- The loops of l.127-129, l.158-160, l.173-175 and l.191-195. -/
def groupBy [DecidableEq κ] (key : α → κ) (xs : List α) : List (κ × List α) :=
  xs.foldl (fun d x => addTo (key x) x d) []

/-- `xs.sort(key=key)`, a stable sort. -/
def sortBy [LinearOrder β] (key : α → β) (xs : List α) : List α :=
  xs.mergeSort fun a b => decide (key a ≤ key b)

/-- `d[k] = v`; dictionaries that are only read by key are functions. -/
def set [DecidableEq κ] (d : κ → Option β) (k : κ) (v : β) : κ → Option β :=
  fun k' => if k' = k then some v else d k'

end

/-- The key of l.133-140. -/
noncomputable def sortKey (b : Benchmark) : Text ×ₗ ℤ ×ₗ Bool ×ₗ Bool ×ₗ ℝ ×ₗ Text :=
  toLex (caseTitle b.case, toLex (b.case.M, toLex (b.case.isPrograde, toLex (b.case.isLowPath,
    toLex (b.stats.median, solverName b)))))

/-- L.124-142, `sorted_benchmarks`. -/
noncomputable def sortedBenchmarks (reports : List Report) : List (Text × List Benchmark) :=
  let groups := groupBy Benchmark.group (reports.flatMap Report.benchmarks)
  let groups := groups.map fun g => (g.1, sortBy sortKey g.2)
  sortBy Prod.fst groups

/-- L.145-152, `machine_summary`. -/
def machineSummary (r : Report) : Text :=
  r.system.getD "unknown OS".toList ++ ", Python ".toList ++ r.python.getD "unknown Python".toList ++ ", ".toList ++
    r.cpu.getD "unknown CPU".toList

/-- The dictionary of l.162-167 after the entries of one case. -/
noncomputable def rankCase (d : Case × Text → Option ℕ) (g : Case × List Benchmark) : Case × Text → Option ℕ :=
  ((sortBy (fun b => b.stats.median) g.2).zipIdx 1).foldl (fun d e => set d (g.1, solverName e.1) e.2) d

/-- L.155-167, `_rank_within_case`. -/
noncomputable def rankWithinCase (bs : List Benchmark) : Case × Text → Option ℕ :=
  (groupBy caseKey bs).foldl rankCase fun _ => none

/-- L.178: `max(...)` of the medians of the entries of a case. -/
noncomputable def slowest : List Benchmark → Except Err ℝ
  | [] => .error .valueError
  | b :: bs => .ok (bs.foldl (fun m e => max m e.stats.median) b.stats.median)

/-- The dictionary of l.177-184 after the entries of one case. -/
noncomputable def speedupCase (d : Case × Text → Option ℝ) (g : Case × List Benchmark) :
    Except Err (Case × Text → Option ℝ) := do
  let s ← slowest g.2
  .ok (g.2.foldl (fun d e => set d (g.1, solverName e)
    (if e.stats.median > 0 then s / e.stats.median else 1.0)) d)

/-- L.170-184, `_speedup_within_case`. -/
noncomputable def speedupWithinCase (bs : List Benchmark) : Except Err (Case × Text → Option ℝ) :=
  (groupBy caseKey bs).foldlM speedupCase fun _ => none

/-- L.187-195, `_benchmarks_by_scenario`. -/
def byScenario (bs : List Benchmark) : List (Text × List Benchmark) := groupBy (fun b => caseTitle b.case) bs

/-- The cells of a row of the table, l.237-256. -/
structure Row where
  rank : ℕ
  name : Text
  case : Case
  stats : Stats
  speedup : ℝ

/-- L.237-243. -/
def mkRow (ranks : Case × Text → Option ℕ) (speedups : Case × Text → Option ℝ) (b : Benchmark) : Row :=
  ⟨(ranks (caseKey b, solverName b)).getD 0, solverName b, b.case, b.stats,
    (speedups (caseKey b, solverName b)).getD 1.0⟩

/-- The tables of one group: its title, and for each scenario its title and its rows; l.218-257. -/
noncomputable def groupTables (g : Text × List Benchmark) : Except Err (Text × List (Text × List Row)) := do
  let ranks := rankWithinCase g.2
  let speedups ← speedupWithinCase g.2
  .ok (groupTitle g.1, (byScenario g.2).map fun s => (s.1, s.2.map (mkRow ranks speedups)))

/-- The tables of the section, l.200 and l.218-257. -/
noncomputable def tables (reports : List Report) : Except Err (List (Text × List (Text × List Row))) :=
  (sortedBenchmarks reports).mapM groupTables

def nl : Text := ['\n']

/-- `"\n".join(lines)`, l.260. -/
def joinLines : List Text → Text
  | [] => []
  | [l] => l
  | l :: ls => l ++ nl ++ joinLines ls

/-- L.244-256; `fmt` is the format `:.1f`. -/
noncomputable def rowLine (fmt : ℝ → Text) (r : Row) : Text :=
  "| ".toList ++ (toString r.rank).toList ++ " | `".toList ++ r.name ++ "` | ".toList ++ (toString r.case.M).toList ++
    " | ".toList ++ casePrograde r.case ++ " | ".toList ++ casePath r.case ++ " | ".toList ++
    fmt (r.stats.median * 1e6) ++ " | ".toList ++ fmt (r.stats.mean * 1e6) ++ " | ".toList ++ fmt (r.stats.iqr * 1e6) ++
    " | ".toList ++ fmt r.speedup ++ "x | ".toList ++ (toString r.stats.rounds).toList ++ " |".toList

/-- The lines of one group, l.218-257. -/
noncomputable def groupLines (fmt : ℝ → Text) (g : Text × List (Text × List Row)) : List Text :=
  ["### ".toList ++ g.1, []] ++ g.2.flatMap fun s =>
    ["#### ".toList ++ s.1, [],
      "| Rank | Solver | Revolutions | prograde | Path | Median (µs) | Mean (µs) | IQR (µs) | Speedup | Rounds |".toList,
      "|-----:|--------|------------:|----------|------|-----------:|----------:|---------:|--------:|-------:|".toList]
      ++ s.2.map (rowLine fmt) ++ [[]]

/-- L.198-260, `build_section`; `now` is the formatted date. -/
noncomputable def buildSection (fmt : ℝ → Text) (now : Text) (reports : List Report) : Except Err Text := do
  let ts ← tables reports
  match reports with
  | [] => .error .indexError
  | r :: _ =>
    .ok (joinLines ([sectionTitle, [], startMarker, [],
      "_This section is auto-generated from CI benchmark artifacts._".toList, [],
      "- Generated: ".toList ++ now, "- Commit: `".toList ++ (r.commit.getD "unknown".toList).take 12 ++ "`".toList,
      "- Environment: ".toList ++ machineSummary r, [],
      "Times are in microseconds (lower is better).".toList,
      "**Speedup** is relative to the slowest solver for each case.".toList,
      "All solvers are JIT-warmed before timing begins.".toList, []] ++
      ts.flatMap (groupLines fmt) ++ [endMarker, []]))

/-- `str.isspace` for one character. -/
def isSpace (c : Char) : Bool :=
  let n := c.toNat
  (9 ≤ n && n ≤ 13) || (28 ≤ n && n ≤ 32) || n == 0x85 || n == 0xa0 || n == 0x1680 || (0x2000 ≤ n && n ≤ 0x200a) ||
    n == 0x2028 || n == 0x2029 || n == 0x202f || n == 0x205f || n == 0x3000

/-- `str.rstrip`. -/
def rstrip (s : Text) : Text := (s.reverse.dropWhile isSpace).reverse

/-- The escapes of letters known to `re`. -/
def letterEscape : Char → Option Char
  | 'a' => some '\x07' | 'b' => some '\x08' | 'f' => some '\x0c' | 'n' => some '\n' | 'r' => some '\r'
  | 't' => some '\t' | 'v' => some '\x0b' | _ => none

/-- How `pattern.sub` reads its replacement text (`re._parser.parse_template`).  Simplification: group references
and octal escapes (`\g<...>` and a digit after the backslash) stop the model with `re.error`; the pattern has no
groups, so only `\g<0>` and octal numbers would not. -/
def expandTemplate : Text → Except Err Text
  | [] => .ok []
  | ['\\'] => .error .reError
  | '\\' :: c :: cs =>
    if c = '\\' then (expandTemplate cs).map (['\\'] ++ ·)
    else match letterEscape c with
      | some e => (expandTemplate cs).map ([e] ++ ·)
      | none =>
        if c.isAlpha || c.isDigit then .error .reError else (expandTemplate cs).map (['\\', c] ++ ·)
  | c :: cs => (expandTemplate cs).map ([c] ++ ·)

/-- The optional line end of the pattern, l.270. -/
def dropNl : Text → Text
  | '\n' :: s => s
  | s => s

theorem splitFirst_length {m s a b : Text} (hm : m ≠ []) (h : splitFirst m s = some (a, b)) : b.length < s.length := by
  induction s generalizing a with
  | nil => simp [splitFirst, hm] at h
  | cons c cs ih =>
    unfold splitFirst at h
    split_ifs at h with hp
    · obtain ⟨rfl, rfl⟩ := Prod.mk.inj (Option.some.inj h)
      have : 0 < m.length := List.length_pos_of_ne_nil hm
      simp only [List.length_drop, List.length_cons]
      omega
    · simp only [Option.map_eq_some_iff, Prod.mk.injEq, Prod.exists] at h
      obtain ⟨a', b', h', -, rfl⟩ := h
      have := ih h'
      simp only [List.length_cons]
      omega

theorem dropNl_length (s : Text) : (dropNl s).length ≤ s.length := by
  unfold dropNl
  split <;> simp

/-- `pattern.sub(rep, s)` for the pattern of l.269-272: from each first start marker to the first end marker after it
and one line end. -/
def subAll (rep s : Text) : Text :=
  match h1 : splitFirst startMarker s with
  | none => s
  | some (a, b) =>
    match h2 : splitFirst endMarker b with
    | none => s
    | some (_, c) => a ++ rep ++ subAll rep (dropNl c)
termination_by s.length
decreasing_by
  have e1 := splitFirst_length (by decide) h1
  have e2 := splitFirst_length (by decide) h2
  have e3 := dropNl_length c
  omega

/-- L.263-277, `update_readme`: the new content of the file. -/
def updateReadme (content sec : Text) : Except Err Text :=
  if contains startMarker content = true ∧ contains endMarker content = true then
    match splitFirst (startMarker ++ nl ++ nl) sec with
    | none => .error .indexError
    | some (_, g) => do
      let rep ← expandTemplate (startMarker ++ nl ++ nl ++ g)
      .ok (subAll rep content)
  else .ok (rstrip content ++ nl ++ nl ++ sec)

/-- L.280-285, `main`: the new content of the README. -/
noncomputable def main (fmt : ℝ → Text) (now : Text) (files : List Report) (readme : Text) : Except Err Text := do
  let reports ← loadReports files
  let s ← buildSection fmt now reports
  updateReadme readme s

end Lamberthub.Report
