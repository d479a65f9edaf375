import Verif.Props.ReportReadme
import Verif.Props.ReportTables

/-!
# Running the report script (property C62)

Any number of runs of the script leaves the README that the last run alone would have written.
-/

set_option autoImplicit false

namespace Lamberthub.Report
open scoped List

/-! ## The text of the section -/

/-- The lines between the start marker and the end marker, l.207-257. -/
theorem buildSection_shape {fmt : ℝ → Text} {now s : Text} {reports : List Report} (h : buildSection fmt now reports = .ok s) :
    ∃ r ts, reports.head? = some r ∧ tables reports = .ok ts ∧ s = Spec.fullSection (joinLines
      ("_This section is auto-generated from CI benchmark artifacts._".toList :: [] ::
      ("- Generated: ".toList ++ now) :: ("- Commit: `".toList ++ (r.commit.getD "unknown".toList).take 12 ++ "`".toList) ::
      ("- Environment: ".toList ++ machineSummary r) :: [] ::
      "Times are in microseconds (lower is better).".toList ::
      "**Speedup** is relative to the slowest solver for each case.".toList ::
      "All solvers are JIT-warmed before timing begins.".toList :: [] :: ts.flatMap (groupLines fmt)) ++ nl) := by
  unfold buildSection at h
  obtain ⟨ts, hts⟩ := tables_total reports
  rw [hts] at h
  cases reports with
  | nil => cases h
  | cons r rs =>
    refine ⟨r, ts, rfl, hts, ?_⟩
    obtain rfl := Except.ok.inj h
    rw [joinLines_append (by simp) (by simp)]
    have e : joinLines [endMarker, []] = endMarker ++ nl := by simp [joinLines]
    rw [e]
    unfold Spec.fullSection Spec.generated
    simp only [List.cons_append, List.nil_append, joinLines, List.append_assoc]

theorem tables_origin {reports : List Report} {ts : List (Text × List (Text × List Row))} (h : tables reports = .ok ts)
    {g : Text × List (Text × List Row)} (hg : g ∈ ts) :
    (∃ b ∈ reports.flatMap Report.benchmarks, g.1 = groupTitle b.group) ∧
    ∀ s ∈ g.2, (∃ b ∈ reports.flatMap Report.benchmarks, s.1 = caseTitle b.case) ∧
      ∀ r ∈ s.2, ∃ b ∈ reports.flatMap Report.benchmarks, r.name = solverName b ∧ r.case = b.case := by
  have h1 := mapM_ok h
  obtain ⟨x, hx, hxg⟩ : ∃ x ∈ sortedBenchmarks reports, groupTables x = .ok g := by
    clear h
    generalize sortedBenchmarks reports = xs at h1
    induction h1 with
    | nil => cases hg
    | @cons x t xs ts' hxt _ ih =>
      rcases List.mem_cons.1 hg with rfl | hg
      · exact ⟨x, by simp, hxt⟩
      · obtain ⟨y, hy, e⟩ := ih hg
        exact ⟨y, by simp [hy], e⟩
  obtain ⟨D, hD, rfl⟩ := groupTables_ok hxg
  unfold sortedBenchmarks at hx
  have hx' := (sortBy_perm Prod.fst _).mem_iff.1 hx
  rw [List.mem_map] at hx'
  obtain ⟨⟨name, es⟩, hes, rfl⟩ := hx'
  obtain ⟨hne, rfl⟩ := ((groupBy_spec _ _).2 _ _).1 hes
  have hall : ∀ b ∈ sortBy sortKey ((reports.flatMap Report.benchmarks).filter fun b => b.group = name),
      b ∈ reports.flatMap Report.benchmarks := fun b hb =>
    (List.mem_filter.1 ((sortBy_perm _ _).mem_iff.1 hb)).1
  constructor
  · obtain ⟨b, hb⟩ := List.exists_mem_of_ne_nil _ hne
    have := List.mem_filter.1 hb
    exact ⟨b, this.1, by rw [of_decide_eq_true this.2]⟩
  · intro s hs
    rw [List.mem_map] at hs
    obtain ⟨⟨title, zs⟩, hz, rfl⟩ := hs
    obtain ⟨hne, rfl⟩ := ((groupBy_spec _ _).2 _ _).1 hz
    constructor
    · obtain ⟨b, hb⟩ := List.exists_mem_of_ne_nil _ hne
      have := List.mem_filter.1 hb
      exact ⟨b, hall b this.1, (of_decide_eq_true this.2).symm⟩
    · intro r hr
      rw [List.mem_map] at hr
      obtain ⟨b, hb, rfl⟩ := hr
      exact ⟨b, hall b (List.mem_filter.1 hb).1, rfl, rfl⟩

/-- The texts of the reports, the date and the numbers contain neither `<` nor a backslash.  For the solvers this is
asked of the name, since the text of a python function begins with `<`. -/
structure Spec.PlainRun (fmt : ℝ → Text) (now : Text) (reports : List Report) : Prop where
  number : ∀ x, Spec.Plain (fmt x)
  date : Spec.Plain now
  machine : ∀ r ∈ reports, ∀ t, r.commit = some t ∨ r.cpu = some t ∨ r.python = some t ∨ r.system = some t → Spec.Plain t
  entry : ∀ b ∈ reports.flatMap Report.benchmarks, Spec.Plain b.group ∧ Spec.Plain b.case.name ∧ Spec.Plain (solverName b)

theorem plain_getD {o : Option Text} {d : Text} (h : ∀ t, o = some t → Spec.Plain t) (hd : Spec.Plain d) : Spec.Plain (o.getD d) := by
  cases o with
  | none => exact hd
  | some t => exact h t rfl

theorem plain_nil : Spec.Plain [] := by unfold Spec.Plain; decide

theorem plain_rowLine {fmt : ℝ → Text} (hf : ∀ x, Spec.Plain (fmt x)) {r : Row} (hr : Spec.Plain r.name) :
    Spec.Plain (rowLine fmt r) := by
  unfold rowLine casePrograde casePath
  simp only [plain_append]
  refine ⟨⟨⟨⟨⟨⟨⟨⟨⟨⟨⟨⟨⟨⟨⟨⟨⟨⟨⟨⟨?_, plain_nat _⟩, ?_⟩, hr⟩, ?_⟩, plain_int _⟩, ?_⟩, ?_⟩, ?_⟩, ?_⟩, ?_⟩, hf _⟩, ?_⟩, hf _⟩, ?_⟩, hf _⟩, ?_⟩,
    hf _⟩, ?_⟩, plain_nat _⟩, ?_⟩
  all_goals unfold Spec.Plain
  all_goals try split_ifs
  all_goals decide

/-- **C62**: the body of the section of plain reports contains neither marker, nor a backslash. -/
theorem buildSection_plain {fmt : ℝ → Text} {now : Text} {reports : List Report} (hp : Spec.PlainRun fmt now reports)
    (hne : reports ≠ []) :
    ∃ body, buildSection fmt now reports = .ok (Spec.fullSection body) ∧ Spec.Plain body := by
  obtain ⟨s, hs⟩ : ∃ s, buildSection fmt now reports = .ok s := by
    obtain ⟨ts, hts⟩ := tables_total reports
    cases reports with
    | nil => exact absurd rfl hne
    | cons r rs => unfold buildSection; rw [hts]; exact ⟨_, rfl⟩
  obtain ⟨r, ts, hr, hts, rfl⟩ := buildSection_shape hs
  refine ⟨_, hs, ?_⟩
  have hr' : r ∈ reports := List.mem_of_mem_head? (by rw [hr]; rfl)
  rw [plain_append]
  refine ⟨plain_joinLines fun l hl => ?_, plain_nl⟩
  simp only [List.mem_cons, List.mem_flatMap] at hl
  rcases hl with rfl | rfl | rfl | rfl | rfl | rfl | rfl | rfl | rfl | rfl | ⟨g, hg, hl⟩
  · unfold Spec.Plain; decide
  · exact plain_nil
  · rw [plain_append]
    exact ⟨by unfold Spec.Plain; decide, hp.date⟩
  · rw [plain_append, plain_append]
    refine ⟨⟨by unfold Spec.Plain; decide, ?_⟩, by unfold Spec.Plain; decide⟩
    have := plain_getD (o := r.commit) (d := "unknown".toList) (fun t ht => hp.machine r hr' t (.inl ht))
      (by unfold Spec.Plain; decide)
    exact ⟨fun h => this.1 (List.mem_of_mem_take h), fun h => this.2 (List.mem_of_mem_take h)⟩
  · rw [plain_append]
    refine ⟨by unfold Spec.Plain; decide, ?_⟩
    unfold machineSummary
    simp only [plain_append]
    refine ⟨⟨⟨⟨?_, ?_⟩, ?_⟩, ?_⟩, ?_⟩
    · exact plain_getD (fun t ht => hp.machine r hr' t (.inr (.inr (.inr ht)))) (by unfold Spec.Plain; decide)
    · unfold Spec.Plain; decide
    · exact plain_getD (fun t ht => hp.machine r hr' t (.inr (.inr (.inl ht)))) (by unfold Spec.Plain; decide)
    · unfold Spec.Plain; decide
    · exact plain_getD (fun t ht => hp.machine r hr' t (.inr (.inl ht))) (by unfold Spec.Plain; decide)
  · exact plain_nil
  · unfold Spec.Plain; decide
  · unfold Spec.Plain; decide
  · unfold Spec.Plain; decide
  · exact plain_nil
  · obtain ⟨⟨b, hb, h1⟩, h2⟩ := tables_origin hts hg
    unfold groupLines at hl
    simp only [List.mem_append, List.mem_cons, List.not_mem_nil, or_false, List.mem_flatMap, List.mem_map] at hl
    rcases hl with (rfl | rfl) | ⟨s, hs, ((rfl | rfl | rfl | rfl) | ⟨r, hr, rfl⟩) | rfl⟩
    · rw [plain_append, h1]
      exact ⟨by unfold Spec.Plain; decide, plain_groupTitle (hp.entry b hb).1⟩
    · exact plain_nil
    · obtain ⟨⟨b, hb, h3⟩, -⟩ := h2 s hs
      rw [plain_append, h3]
      exact ⟨by unfold Spec.Plain; decide, plain_caseTitle (hp.entry b hb).2.1⟩
    · exact plain_nil
    · unfold Spec.Plain; decide
    · unfold Spec.Plain; decide
    · obtain ⟨b, hb, h3, -⟩ := (h2 s hs).2 r hr
      exact plain_rowLine hp.number (h3 ▸ (hp.entry b hb).2.2)
    · exact plain_nil

theorem Spec.Plain.clean {body : Text} (h : Spec.Plain body) : Spec.Clean body :=
  ⟨fun hi => h.1 (hi.subset (by decide)), fun hi => h.1 (hi.subset (by decide))⟩

/-! ## Runs of the script -/

/-- **C62**: a run of the script on a README it can keep up to date succeeds, and a later run forgets it. -/
theorem main_last_wins {fmt fmt' : ℝ → Text} {now now' c : Text} {files files' : List Report} (hc : Spec.Tidy c)
    (hp : Spec.PlainRun fmt now files) (hne : files ≠ []) (hp' : Spec.PlainRun fmt' now' files') :
    ∃ c', main fmt now files c = .ok c' ∧ Spec.Tidy c' ∧ main fmt' now' files' c' = main fmt' now' files' c := by
  obtain ⟨body, hb, hpl⟩ := buildSection_plain hp hne
  obtain ⟨c', h1, h2, h3⟩ := update_last_wins hc hpl.clean hpl.2
  refine ⟨c', ?_, h2, ?_⟩
  · unfold main loadReports
    rw [if_neg hne]
    change (buildSection fmt now files >>= fun s => updateReadme c s) = _
    rw [hb]
    exact h1
  · by_cases hf : files' = []
    · subst hf
      rfl
    · obtain ⟨body', hb', hpl'⟩ := buildSection_plain hp' hf
      unfold main loadReports
      rw [if_neg hf]
      change (buildSection fmt' now' files' >>= fun s => updateReadme c' s) =
        (buildSection fmt' now' files' >>= fun s => updateReadme c s)
      rw [hb']
      exact h3 body' hpl'.2

/-- What a run of the script is given: the number format, the date, and the report files. -/
structure Spec.Run where
  fmt : ℝ → Text
  now : Text
  files : List Report

/-- **C62**: after any number of runs of the script the README is the one of the last run. -/
theorem main_runs {c : Text} (hc : Spec.Tidy c) {runs : List Spec.Run} {last : Spec.Run}
    (hr : ∀ r ∈ runs, Spec.PlainRun r.fmt r.now r.files ∧ r.files ≠ []) (hl : Spec.PlainRun last.fmt last.now last.files) :
    (runs ++ [last]).foldlM (fun c r => main r.fmt r.now r.files c) c = main last.fmt last.now last.files c := by
  induction runs generalizing c with
  | nil =>
    rw [List.nil_append, List.foldlM_cons]
    cases main last.fmt last.now last.files c <;> rfl
  | cons r runs ih =>
    obtain ⟨h1, h2⟩ := hr r (by simp)
    obtain ⟨c', e1, e2, e3⟩ := main_last_wins hc h1 h2 hl
    rw [List.cons_append, List.foldlM_cons, e1]
    change (runs ++ [last]).foldlM _ c' = _
    rw [ih e2 fun r hr' => hr r (by simp [hr']), e3]

/-- **C62**: without report files the script stops and the README is not touched. -/
theorem main_no_files (fmt : ℝ → Text) (now c : Text) : main fmt now [] c = .error .fileNotFound := rfl

/-! ## Examples -/

theorem plain_of_word {t : Text} (h : ∀ c ∈ t, isWord c = true) : Spec.Plain t :=
  ⟨fun hc => absurd (h _ hc) (by decide), fun hc => absurd (h _ hc) (by decide)⟩

/-- A report with one measurement is plain, and so the theorems on runs apply to it. -/
example : Spec.PlainRun (fun _ => "1.0".toList) "2026-01-01 00:00 UTC".toList
    [⟨[exampleEntry "<function izzo2015 at 0x7f>".toList 3], some "0123456789abcdef".toList, none, some "3.12.1".toList, none⟩] := by
  have n1 : solverName (exampleEntry "<function izzo2015 at 0x7f>".toList 3) = "izzo2015".toList :=
    solverName_function (p := []) (q := "at 0x7f>".toList) rfl (by simp) (by decide) (by decide)
  refine ⟨fun _ => by unfold Spec.Plain; decide, by unfold Spec.Plain; decide, ?_, ?_⟩
  · intro r hr t ht
    obtain rfl := List.mem_singleton.1 hr
    rcases ht with ht | ht | ht | ht
    · obtain rfl := Option.some.inj ht
      unfold Spec.Plain; decide
    · cases ht
    · obtain rfl := Option.some.inj ht
      unfold Spec.Plain; decide
    · cases ht
  · intro b hb
    have hb' : b ∈ [exampleEntry "<function izzo2015 at 0x7f>".toList 3] := hb
    obtain rfl := List.mem_singleton.1 hb'
    refine ⟨?_, ?_, ?_⟩
    · change Spec.Plain "zero-rev-nominal".toList
      unfold Spec.Plain; decide
    · change Spec.Plain "vallado-book".toList
      unfold Spec.Plain; decide
    · rw [n1]
      unfold Spec.Plain; decide

/-- A README without markers, and one with a generated section between two texts, can be kept up to date. -/
example : Spec.Tidy "# lamberthub\n".toList ∧
    Spec.Tidy ("# lamberthub\n".toList ++ startMarker ++ ("\nold\n".toList ++ endMarker ++ "\n## Licence\n".toList)) := by
  have key : ∀ t : Text, '<' ∉ t → ¬ startMarker <:+: t ∧ ¬ endMarker <:+: t := fun t ht =>
    ⟨fun h => ht (h.subset (by decide)), fun h => ht (h.subset (by decide))⟩
  exact ⟨.inl (key _ (by decide)).1, .inr ⟨_, _, _, rfl, (key _ (by decide)).1, (key _ (by decide)).2, (key _ (by decide)).1⟩⟩

/-- The hypotheses of the negations are met by short texts. -/
example : (¬ startMarker <:+: (endMarker ++ nl) ∧ ¬ endMarker <:+: ([] : Text) ∧ endMarker <:+: endMarker ++ nl) ∧
    letterEscape 'd' = none ∧ ('d'.isAlpha || 'd'.isDigit) = true := by
  refine ⟨⟨?_, ?_, List.infix_append' [] _ _⟩, rfl, rfl⟩
  · intro h
    have h1 := infix_sep (m := startMarker) (x := endMarker) (y := []) (d := '\n') (by decide) (by simpa [nl] using h)
    rcases h1 with h1 | h1
    · have := h1.length_le
      exact absurd this (by decide)
    · exact absurd (List.infix_nil.1 h1) (by decide)
  · intro h
    exact absurd (List.infix_nil.1 h) (by decide)

end Lamberthub.Report
