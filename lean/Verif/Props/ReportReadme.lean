import Verif.Model.Report

/-!
# The generated section of the README (property C62)

Updating the README touches nothing outside the two markers, and the last update wins.
-/

set_option autoImplicit false

namespace Lamberthub.Report

/-! ## Searching in a text -/

theorem splitFirst_none_iff {m s : Text} : splitFirst m s = none ↔ ¬ m <:+: s := by
  induction s with
  | nil =>
    unfold splitFirst
    by_cases h : m = []
    · simp [h]
    · simp [h]
  | cons c cs ih =>
    unfold splitFirst
    rw [List.infix_cons_iff]
    by_cases h : m <+: c :: cs
    · simp [h]
    · simp [h, ih]

theorem contains_iff {m s : Text} : contains m s = true ↔ m <:+: s := by
  unfold contains
  rw [Option.isSome_iff_ne_none, ne_eq, splitFirst_none_iff, not_not]

/-- The first occurrence of a text whose first character does not occur again in it. -/
theorem splitFirst_append {d : Char} {m a b : Text} (hd : d ∉ m) (ha : ¬ d :: m <:+: a) :
    splitFirst (d :: m) (a ++ (d :: m) ++ b) = some (a, b) := by
  induction a with
  | nil =>
    rw [List.nil_append, List.cons_append, splitFirst, if_pos (by simp)]
    simp
  | cons c cs ih =>
    rw [List.infix_cons_iff, not_or] at ha
    rw [List.cons_append, List.cons_append, splitFirst, if_neg, ih ha.2]
    · rfl
    · intro hp
      refine ha.1 ?_
      by_cases hl : (d :: m).length ≤ (c :: cs).length
      · refine List.prefix_of_prefix_length_le hp ?_ hl
        rw [← List.cons_append, ← List.cons_append, List.append_assoc]
        exact List.prefix_append _ _
      · exfalso
        -- the second occurrence starts inside the first
        have h1 : c :: cs <+: d :: m := by
          refine List.prefix_of_prefix_length_le (l₃ := c :: (cs ++ d :: m ++ b)) ?_ hp (by omega)
          rw [← List.cons_append, ← List.cons_append, List.append_assoc]
          exact List.prefix_append _ _
        obtain ⟨t, ht⟩ := h1
        rw [← ht, ← List.cons_append, ← List.cons_append, List.append_assoc, List.prefix_append_right_inj] at hp
        cases t with
        | nil => rw [List.append_nil] at ht; rw [ht] at hl; omega
        | cons e t =>
          rw [ht, List.cons_append, List.cons_prefix_cons] at hp
          obtain ⟨rfl, -⟩ := hp
          rw [List.cons_append] at ht
          have := (List.cons.inj ht).2
          rw [← this] at hd
          simp at hd

/-- An occurrence cannot contain a character that the text does not have. -/
theorem infix_sep {m x y : Text} {d : Char} (hd : d ∉ m) (h : m <:+: x ++ d :: y) : m <:+: x ∨ m <:+: y := by
  obtain ⟨s, t, h⟩ := h
  rw [List.append_assoc] at h
  rcases List.append_eq_append_iff.1 h with ⟨u, rfl, h2⟩ | ⟨u, rfl, h2⟩
  · rcases List.append_eq_append_iff.1 h2 with ⟨w, rfl, h3⟩ | ⟨w, rfl, h3⟩
    · left
      exact ⟨s, w, by simp⟩
    · cases w with
      | nil => left; exact ⟨s, [], by simp⟩
      | cons e w =>
        rw [List.cons_append] at h3
        obtain ⟨rfl, -⟩ := List.cons.inj h3
        simp at hd
  · cases u with
    | nil =>
      rw [List.nil_append] at h2
      cases m with
      | nil => right; exact List.nil_infix
      | cons e m =>
        rw [List.cons_append] at h2
        obtain ⟨rfl, -⟩ := List.cons.inj h2
        simp at hd
    | cons e u =>
      rw [List.cons_append] at h2
      right
      exact ⟨u, t, by rw [(List.cons.inj h2).2, List.append_assoc]⟩

theorem startMarker_cons : ∃ m, startMarker = '<' :: m ∧ '<' ∉ m := ⟨startMarker.tail, by decide, by decide⟩
theorem endMarker_cons : ∃ m, endMarker = '<' :: m ∧ '<' ∉ m := ⟨endMarker.tail, by decide, by decide⟩

theorem split_start {a b : Text} (ha : ¬ startMarker <:+: a) : splitFirst startMarker (a ++ startMarker ++ b) = some (a, b) := by
  obtain ⟨m, hm, hd⟩ := startMarker_cons
  rw [hm] at ha ⊢
  exact splitFirst_append hd ha

theorem split_end {a b : Text} (ha : ¬ endMarker <:+: a) : splitFirst endMarker (a ++ endMarker ++ b) = some (a, b) := by
  obtain ⟨m, hm, hd⟩ := endMarker_cons
  rw [hm] at ha ⊢
  exact splitFirst_append hd ha

/-! ## The substitution -/

theorem subAll_of_no_start {rep s : Text} (h : ¬ startMarker <:+: s) : subAll rep s = s := by
  rw [subAll]
  split
  · rfl
  · next h1 => rw [splitFirst_none_iff.2 h] at h1; cases h1

theorem subAll_of_no_end {rep a b : Text} (ha : ¬ startMarker <:+: a) (hb : ¬ endMarker <:+: b) :
    subAll rep (a ++ startMarker ++ b) = a ++ startMarker ++ b := by
  rw [subAll]
  split
  · rfl
  · next a' b' h1 =>
    rw [split_start ha] at h1
    obtain ⟨rfl, rfl⟩ := Prod.mk.inj (Option.some.inj h1)
    split
    · rfl
    · next h2 => rw [splitFirst_none_iff.2 hb] at h2; cases h2

theorem subAll_block {rep a mid rest : Text} (ha : ¬ startMarker <:+: a) (hm : ¬ endMarker <:+: mid) :
    subAll rep (a ++ startMarker ++ (mid ++ endMarker ++ rest)) = a ++ rep ++ subAll rep (dropNl rest) := by
  rw [subAll]
  split
  · next h1 => rw [split_start ha] at h1; cases h1
  · next a' b' h1 =>
    rw [split_start ha] at h1
    obtain ⟨rfl, rfl⟩ := Prod.mk.inj (Option.some.inj h1)
    split
    · next h2 => rw [split_end hm] at h2; cases h2
    · next x c h2 =>
      rw [split_end hm] at h2
      obtain ⟨rfl, rfl⟩ := Prod.mk.inj (Option.some.inj h2)
      rfl

/-- A replacement text without backslashes is used as it is. -/
theorem expandTemplate_id {t : Text} (h : '\\' ∉ t) : expandTemplate t = .ok t := by
  induction t with
  | nil => rfl
  | cons c cs ih =>
    rw [List.mem_cons, not_or] at h
    have := ih h.2
    unfold expandTemplate
    split
    all_goals simp_all [Except.map]

/-- A backslash followed by a letter that is not an escape stops the substitution. -/
theorem expandTemplate_bad {x y : Text} {c : Char} (hx : '\\' ∉ x) (hc : letterEscape c = none)
    (ha : (c.isAlpha || c.isDigit) = true) : expandTemplate (x ++ '\\' :: c :: y) = .error .reError := by
  induction x with
  | nil =>
    have hne : c ≠ '\\' := by rintro rfl; exact absurd ha (by decide)
    rw [List.nil_append, expandTemplate, if_neg hne, hc]
    simp only [ha, if_true]
  | cons e x ih =>
    rw [List.mem_cons, not_or] at hx
    rw [List.cons_append]
    have := ih hx.2
    unfold expandTemplate
    split
    all_goals simp_all [Except.map]

/-! ## The property -/

/-- The text of a generated section, l.204-260: the title, the start marker, the body, the end marker. -/
def Spec.generated (body : Text) : Text := startMarker ++ nl ++ nl ++ body ++ endMarker ++ nl

def Spec.fullSection (body : Text) : Text := sectionTitle ++ nl ++ nl ++ Spec.generated body

/-- The body can be replaced by a later update. -/
structure Spec.Clean (body : Text) : Prop where
  no_start : ¬ startMarker <:+: body
  no_end : ¬ endMarker <:+: body

theorem split_section (body : Text) :
    splitFirst (startMarker ++ nl ++ nl) (Spec.fullSection body) =
      some (sectionTitle ++ nl ++ nl, body ++ endMarker ++ nl) := by
  have e : ∃ m, startMarker ++ nl ++ nl = '<' :: m ∧ '<' ∉ m := ⟨(startMarker ++ nl ++ nl).tail, by decide, by decide⟩
  obtain ⟨m, hm, hd⟩ := e
  have h0 : ¬ '<' :: m <:+: sectionTitle ++ nl ++ nl := by
    intro h
    have := h.subset (List.mem_cons_self)
    exact absurd this (by decide)
  have := splitFirst_append (b := body ++ endMarker ++ nl) hd h0
  rw [← hm] at this
  rw [← this]
  unfold Spec.fullSection Spec.generated
  simp only [List.append_assoc]

theorem generated_template {body : Text} (hb : '\\' ∉ body) :
    expandTemplate (startMarker ++ nl ++ nl ++ (body ++ endMarker ++ nl)) = .ok (Spec.generated body) := by
  rw [expandTemplate_id]
  · unfold Spec.generated; simp only [List.append_assoc]
  · have h1 : '\\' ∉ startMarker := by decide
    have h2 : '\\' ∉ endMarker := by decide
    have h3 : '\\' ∉ nl := by decide
    simp [h1, h2, h3, hb]

/-- A text without the line end at its beginning, if there is one. -/
def Spec.withoutNl (t : Text) : Text := if t.head? = some '\n' then t.tail else t

theorem dropNl_eq (t : Text) : dropNl t = Spec.withoutNl t := by
  unfold Spec.withoutNl
  cases t with
  | nil => rfl
  | cons c t =>
    by_cases h : c = '\n'
    · subst h; simp [dropNl]
    · have h1 : dropNl (c :: t) = c :: t := by
        unfold dropNl
        split
        · next h2 => exact absurd (List.cons.inj h2).1 h
        · rfl
      rw [h1]; simp [h]

/-- **C62**: in a README with one generated section the update replaces it and keeps all the rest. -/
theorem update_replaces {a mid rest body : Text} (ha : ¬ startMarker <:+: a) (hm : ¬ endMarker <:+: mid)
    (hr : ¬ startMarker <:+: Spec.withoutNl rest) (hb : '\\' ∉ body) :
    updateReadme (a ++ startMarker ++ (mid ++ endMarker ++ rest)) (Spec.fullSection body) =
      .ok (a ++ Spec.generated body ++ Spec.withoutNl rest) := by
  unfold updateReadme
  rw [if_pos, split_section]
  · simp only []
    rw [generated_template hb]
    change Except.ok _ = _
    rw [subAll_block ha hm, dropNl_eq, subAll_of_no_start hr]
  · rw [contains_iff, contains_iff]
    exact ⟨⟨a, _, rfl⟩, ⟨a ++ startMarker ++ mid, rest, by simp⟩⟩

/-- **C62**: a README without the start marker gets the section at its end; only blanks at its end are lost. -/
theorem update_appends {c : Text} (body : Text) (hc : ¬ startMarker <:+: c) :
    updateReadme c (Spec.fullSection body) = .ok (rstrip c ++ nl ++ nl ++ Spec.fullSection body) := by
  unfold updateReadme
  rw [if_neg]
  rw [contains_iff]
  exact fun h => hc h.1

theorem rstrip_prefix (c : Text) : rstrip c <+: c := by
  unfold rstrip
  have := List.dropWhile_suffix (l := c.reverse) isSpace
  simpa using List.reverse_prefix.2 this

/-- A README that the script can keep up to date: the start marker is absent, or there is one generated section. -/
def Spec.Tidy (c : Text) : Prop :=
  ¬ startMarker <:+: c ∨ ∃ a mid rest, c = a ++ startMarker ++ (mid ++ endMarker ++ rest) ∧ ¬ startMarker <:+: a ∧
    ¬ endMarker <:+: mid ∧ ¬ startMarker <:+: Spec.withoutNl rest

/-- **C62**: the last update wins: after any number of earlier updates the result is the one of the last update on
the original README, and the README stays in the form that the script can keep up to date. -/
theorem update_last_wins {c body : Text} (hc : Spec.Tidy c) (hb : Spec.Clean body) (hs : '\\' ∉ body) :
    ∃ c', updateReadme c (Spec.fullSection body) = .ok c' ∧ Spec.Tidy c' ∧
      ∀ body', '\\' ∉ body' → updateReadme c' (Spec.fullSection body') = updateReadme c (Spec.fullSection body') := by
  have hmid : ¬ endMarker <:+: nl ++ nl ++ body := by
    intro h
    have h1 : endMarker <:+: [] ∨ endMarker <:+: nl ++ body := infix_sep (d := '\n') (by decide) (by simpa [nl] using h)
    rcases h1 with h1 | h1
    · exact absurd (List.infix_nil.1 h1) (by decide)
    · have h2 : endMarker <:+: [] ∨ endMarker <:+: body := infix_sep (d := '\n') (by decide) (by simpa [nl] using h1)
      rcases h2 with h2 | h2
      · exact absurd (List.infix_nil.1 h2) (by decide)
      · exact hb.no_end h2
  rcases hc with hc | ⟨a, mid, rest, rfl, ha, hm, hr⟩
  · have hpre : ¬ startMarker <:+: rstrip c ++ nl ++ nl ++ (sectionTitle ++ nl ++ nl) := by
      intro h
      have h1 := infix_sep (m := startMarker) (x := rstrip c) (y := nl ++ (sectionTitle ++ nl ++ nl)) (d := '\n') (by decide)
        (by simpa [nl] using h)
      rcases h1 with h1 | h1
      · exact hc (h1.trans (rstrip_prefix c).isInfix)
      · have := h1.subset (a := '<') (by decide)
        exact absurd this (by decide)
    have e : ∀ rest, rstrip c ++ nl ++ nl ++ Spec.fullSection body ++ rest =
        (rstrip c ++ nl ++ nl ++ (sectionTitle ++ nl ++ nl)) ++ startMarker ++ ((nl ++ nl ++ body) ++ endMarker ++ (nl ++ rest)) := by
      intro rest
      unfold Spec.fullSection Spec.generated
      simp only [List.append_assoc]
    refine ⟨_, update_appends body hc, .inr ⟨_, _, nl, by simpa using e [], hpre, hmid, ?_⟩, fun body' hb' => ?_⟩
    · have : Spec.withoutNl nl = [] := by decide
      rw [this, List.infix_nil]
      decide
    · have h2 := update_replaces (rest := nl) (body := body') hpre hmid (by
        have : Spec.withoutNl nl = [] := by decide
        rw [this, List.infix_nil]
        decide) hb'
      have e' := e []
      rw [List.append_nil, List.append_nil] at e'
      rw [e', h2, update_appends body' hc]
      unfold Spec.fullSection
      have : Spec.withoutNl nl = [] := by decide
      simp only [this, List.append_nil, List.append_assoc]
  · have e : a ++ Spec.generated body ++ Spec.withoutNl rest =
        a ++ startMarker ++ ((nl ++ nl ++ body) ++ endMarker ++ (nl ++ Spec.withoutNl rest)) := by
      unfold Spec.generated
      simp only [List.append_assoc]
    have hr' : Spec.withoutNl (nl ++ Spec.withoutNl rest) = Spec.withoutNl rest := by simp [Spec.withoutNl, nl]
    refine ⟨_, update_replaces ha hm hr hs, .inr ⟨a, _, _, e, ha, hmid, by rw [hr']; exact hr⟩, fun body' hb' => ?_⟩
    rw [e, update_replaces ha hmid (by rw [hr']; exact hr) hb', update_replaces ha hm hr hb', hr']

theorem joinLines_append {xs ys : List Text} (hx : xs ≠ []) (hy : ys ≠ []) :
    joinLines (xs ++ ys) = joinLines xs ++ nl ++ joinLines ys := by
  induction xs with
  | nil => exact absurd rfl hx
  | cons x xs ih =>
    cases xs with
    | nil =>
      cases ys with
      | nil => exact absurd rfl hy
      | cons y ys => rfl
    | cons z zs =>
      have := ih (by simp)
      have j : ∀ (x y : Text) ys, joinLines (x :: y :: ys) = x ++ nl ++ joinLines (y :: ys) := fun _ _ _ => rfl
      simp only [List.cons_append] at this ⊢
      rw [j, this, j]
      simp only [List.append_assoc]

/-- **C62, negation**: when the end marker comes only before the start marker the README is never updated. -/
theorem update_never {a b : Text} (ha : ¬ startMarker <:+: a) (hb : ¬ endMarker <:+: b) (he : endMarker <:+: a)
    {body : Text} (hs : '\\' ∉ body) :
    updateReadme (a ++ startMarker ++ b) (Spec.fullSection body) = .ok (a ++ startMarker ++ b) := by
  unfold updateReadme
  rw [if_pos, split_section]
  · simp only []
    rw [generated_template hs]
    change Except.ok _ = _
    rw [subAll_of_no_end ha hb]
  · rw [contains_iff, contains_iff]
    refine ⟨⟨a, b, rfl⟩, he.trans ⟨[], startMarker ++ b, by simp⟩⟩

theorem rstrip_append {x y : Text} {d : Char} (hd : isSpace d = false) : rstrip (x ++ d :: y) = x ++ d :: rstrip y := by
  unfold rstrip
  rw [List.reverse_append, List.reverse_cons, List.append_assoc]
  rw [List.dropWhile_append]
  split
  · next h =>
    have h' : List.dropWhile isSpace y.reverse = [] := by simpa using h
    rw [List.singleton_append, List.dropWhile_cons_of_neg (by simp [hd]), h']
    simp
  · simp

/-- **C62, negation**: a start marker without end marker.  The first update adds a section at the end, and the second
update deletes everything between the first marker and the end of that section. -/
theorem update_loses_text {a b body body' : Text} (ha : ¬ startMarker <:+: a) (hc : ¬ endMarker <:+: a ++ startMarker ++ b)
    (hb : Spec.Clean body) (hs' : '\\' ∉ body') :
    ∃ c', updateReadme (a ++ startMarker ++ b) (Spec.fullSection body) = .ok c' ∧
      updateReadme c' (Spec.fullSection body') = .ok (a ++ Spec.generated body') := by
  have he : rstrip (a ++ startMarker ++ b) = a ++ startMarker ++ rstrip b := by
    have e : startMarker = startMarker.dropLast ++ ['>'] := by decide
    rw [e]
    have := rstrip_append (x := a ++ startMarker.dropLast) (y := b) (d := '>') (by decide)
    simpa using this
  have hmid : ¬ endMarker <:+: (rstrip b ++ nl ++ nl ++ sectionTitle ++ nl ++ nl ++ startMarker ++ nl ++ nl ++ body) := by
    intro h
    have sep : ∀ x y : Text, endMarker <:+: x ++ nl ++ y → endMarker <:+: x ∨ endMarker <:+: y := by
      intro x y h
      exact infix_sep (d := '\n') (by decide) (by simpa [nl] using h)
    have h1 : endMarker <:+: rstrip b ++ nl ++ (nl ++ sectionTitle ++ nl ++ nl ++ startMarker ++ nl ++ nl ++ body) := by
      simpa only [List.append_assoc] using h
    rcases sep _ _ h1 with h1 | h1
    · exact hc ((h1.trans (rstrip_prefix b).isInfix).trans (List.suffix_append _ _).isInfix)
    have h2 : endMarker <:+: (nl ++ sectionTitle ++ nl ++ nl ++ startMarker) ++ nl ++ (nl ++ body) := by
      simpa only [List.append_assoc] using h1
    rcases sep _ _ h2 with h2 | h2
    · have h3 : endMarker <:+: (nl ++ sectionTitle) ++ nl ++ (nl ++ startMarker) := by
        simpa only [List.append_assoc] using h2
      rcases sep _ _ h3 with h3 | h3
      · exact absurd (h3.subset (a := '<') (by decide)) (by decide)
      have h4 : endMarker <:+: [] ++ nl ++ startMarker := h3
      rcases sep _ _ h4 with h4 | h4
      · exact absurd (List.infix_nil.1 h4) (by decide)
      obtain ⟨m, hm, hd⟩ := startMarker_cons
      rw [hm, List.infix_cons_iff, ← hm] at h4
      rcases h4 with h4 | h4
      · exact absurd h4 (by decide)
      · exact hd (h4.subset (a := '<') (by decide))
    have h3 : endMarker <:+: [] ++ nl ++ body := h2
    rcases sep _ _ h3 with h3 | h3
    · exact absurd (List.infix_nil.1 h3) (by decide)
    · exact hb.no_end h3
  have e : rstrip (a ++ startMarker ++ b) ++ nl ++ nl ++ Spec.fullSection body = a ++ startMarker ++
      ((rstrip b ++ nl ++ nl ++ sectionTitle ++ nl ++ nl ++ startMarker ++ nl ++ nl ++ body) ++ endMarker ++ nl) := by
    rw [he]
    unfold Spec.fullSection Spec.generated
    simp only [List.append_assoc]
  refine ⟨rstrip (a ++ startMarker ++ b) ++ nl ++ nl ++ Spec.fullSection body, ?_, ?_⟩
  · unfold updateReadme
    rw [if_neg]
    rw [contains_iff, contains_iff]
    exact fun h => hc h.2
  · rw [e, update_replaces ha hmid (by
      have : Spec.withoutNl nl = [] := by decide
      rw [this, List.infix_nil]
      decide) hs']
    have : Spec.withoutNl nl = [] := by decide
    rw [this, List.append_nil]

/-- **C62, negation**: the generated text is read as a replacement template, so that a backslash in it (for instance
in the name of the processor) followed by a letter stops the update of a README that has the markers. -/
theorem update_backslash_fails {c x y : Text} {e : Char} (hs : startMarker <:+: c) (he : endMarker <:+: c)
    (hx : '\\' ∉ x) (h1 : letterEscape e = none) (h2 : (e.isAlpha || e.isDigit) = true) :
    updateReadme c (Spec.fullSection (x ++ '\\' :: e :: y)) = .error .reError := by
  unfold updateReadme
  rw [if_pos ⟨contains_iff.2 hs, contains_iff.2 he⟩, split_section]
  simp only []
  have : startMarker ++ nl ++ nl ++ (x ++ '\\' :: e :: y ++ endMarker ++ nl) =
      (startMarker ++ nl ++ nl ++ x) ++ '\\' :: e :: (y ++ endMarker ++ nl) := by
    simp only [List.append_assoc, List.cons_append]
  rw [this, expandTemplate_bad ?_ h1 h2]
  · rfl
  · have h1 : '\\' ∉ startMarker := by decide
    have h3 : '\\' ∉ nl := by decide
    simp [h1, h3, hx]

/-! ## The texts that the script builds -/

/-- No character that means something to the update. -/
def Spec.Plain (t : Text) : Prop := '<' ∉ t ∧ '\\' ∉ t

theorem plain_append {s t : Text} : Spec.Plain (s ++ t) ↔ Spec.Plain s ∧ Spec.Plain t := by
  unfold Spec.Plain
  simp only [List.mem_append, not_or]
  tauto

theorem plain_nl : Spec.Plain nl := by unfold Spec.Plain; decide

theorem plain_joinLines {ls : List Text} (h : ∀ l ∈ ls, Spec.Plain l) : Spec.Plain (joinLines ls) := by
  induction ls with
  | nil => exact ⟨by simp [joinLines], by simp [joinLines]⟩
  | cons l ls ih =>
    cases ls with
    | nil => exact h l (by simp)
    | cons m ms =>
      have j : joinLines (l :: m :: ms) = l ++ nl ++ joinLines (m :: ms) := rfl
      rw [j, plain_append, plain_append]
      exact ⟨⟨h l (by simp), plain_nl⟩, ih fun x hx => h x (by simp [hx])⟩

theorem plain_nat (n : ℕ) : Spec.Plain (toString n).toList := by
  have h : ∀ c ∈ (toString n).toList, c.isDigit = true := by
    intro c hc
    rw [Nat.toString_eq_repr, Nat.toList_repr] at hc
    exact Nat.isDigit_of_mem_toDigits (by norm_num) (by norm_num) hc
  exact ⟨fun hc => absurd (h _ hc) (by decide), fun hc => absurd (h _ hc) (by decide)⟩

theorem plain_int (n : ℤ) : Spec.Plain (toString n).toList := by
  cases n with
  | ofNat m => exact plain_nat m
  | negSucc m =>
    have e : toString (Int.negSucc m) = "-" ++ toString (m + 1) := rfl
    rw [e, String.toList_append, plain_append]
    exact ⟨by unfold Spec.Plain; decide, plain_nat _⟩

theorem toLower_ne {c d : Char} (hd : d = '<' ∨ d = '\\') (h : c.toLower = d) : c = d := by
  unfold Char.toLower at h
  split at h
  · next hc =>
    exfalso
    obtain ⟨h1, h2⟩ := hc
    have h3 := congrArg (fun c : Char => c.val.toNat) h
    have h1' : 65 ≤ c.val.toNat := h1
    have h2' : c.val.toNat ≤ 90 := h2
    have e : ('a'.val - 'A'.val).toNat = 32 := by rfl
    simp only [UInt32.toNat_add, e] at h3
    rcases hd with rfl | rfl
    · have : ('<' : Char).val.toNat = 60 := by rfl
      omega
    · have : ('\\' : Char).val.toNat = 92 := by rfl
      omega
  · exact h

theorem toUpper_ne {c d : Char} (hd : d = '<' ∨ d = '\\') (h : c.toUpper = d) : c = d := by
  unfold Char.toUpper at h
  split at h
  · next hc =>
    exfalso
    obtain ⟨h1, h2⟩ := hc
    have h3 := congrArg (fun c : Char => c.val.toNat) h
    have h1' : 97 ≤ c.val.toNat := h1
    have h2' : c.val.toNat ≤ 122 := h2
    have e : ('A'.val - 'a'.val).toNat = 4294967264 := by rfl
    simp only [UInt32.toNat_add, e] at h3
    rcases hd with rfl | rfl
    · have : ('<' : Char).val.toNat = 60 := by rfl
      omega
    · have : ('\\' : Char).val.toNat = 92 := by rfl
      omega
  · exact h

theorem mem_pyTitle {d : Char} (hd : d = '<' ∨ d = '\\') {b : Bool} {t : Text} (h : d ∈ pyTitle b t) : d ∈ t := by
  induction t generalizing b with
  | nil => exact h
  | cons c cs ih =>
    rw [pyTitle, List.mem_cons] at h
    rw [List.mem_cons]
    rcases h with h | h
    · left
      split_ifs at h
      · exact (toLower_ne hd h.symm).symm
      · exact (toUpper_ne hd h.symm).symm
    · exact .inr (ih h)

theorem plain_readable {t : Text} (h : Spec.Plain t) : Spec.Plain (readable t) := by
  have key : ∀ d, d = '<' ∨ d = '\\' → d ∈ readable t → d ∈ t := by
    intro d hd hm
    have := mem_pyTitle hd hm
    rw [List.mem_map] at this
    obtain ⟨c, hc, e⟩ := this
    split_ifs at e
    · subst e; rcases hd with hd | hd <;> exact absurd hd (by decide)
    · rwa [← e]
  exact ⟨fun q => h.1 (key _ (.inl rfl) q), fun q => h.2 (key _ (.inr rfl) q)⟩

theorem plain_lookup {l : List (Text × Text)} (hl : ∀ p ∈ l, Spec.Plain p.2) {t : Text} (h : Spec.Plain t) :
    Spec.Plain ((l.lookup t).getD (readable t)) := by
  cases e : l.lookup t with
  | none => exact plain_readable h
  | some u =>
    obtain ⟨l1, l2, rfl, -⟩ := List.lookup_eq_some_iff.1 e
    exact hl (t, u) (by simp)

theorem plain_caseTitle {c : Case} (h : Spec.Plain c.name) : Spec.Plain (caseTitle c) :=
  plain_lookup (by unfold Spec.Plain; decide) h

theorem plain_groupTitle {g : Text} (h : Spec.Plain g) : Spec.Plain (groupTitle g) :=
  plain_lookup (by unfold Spec.Plain; decide) h

end Lamberthub.Report
