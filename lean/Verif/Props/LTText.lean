/-
C57: the text form of LT paths.
-/
import Verif.LT.PathText
import Verif.Props.LTTree

namespace Verif.LT

variable {db : DB}

/-- a label that `ltree` takes: one or more letters, digits, underscores or hyphens -/
def TextLabel (l : Label) : Prop := l ≠ [] ∧ ∀ c ∈ l, (97 ≤ c ∧ c ≤ 122) ∨ (65 ≤ c ∧ c ≤ 90) ∨ (48 ≤ c ∧ c ≤ 57) ∨ c = 95 ∨ c = 45

/-- a path that `ltree` takes -/
def TextPath (p : Path) : Prop := p ≠ [] ∧ ∀ l ∈ p, TextLabel l

theorem labelChar_iff {c : Nat} : labelChar c = true ↔ (97 ≤ c ∧ c ≤ 122) ∨ (65 ≤ c ∧ c ≤ 90) ∨ (48 ≤ c ∧ c ≤ 57) ∨ c = 95 ∨ c = 45 := by
  unfold labelChar
  simp only [Bool.or_eq_true, Bool.and_eq_true, decide_eq_true_eq, beq_iff_eq]
  tauto

theorem labelChar_space {c : Nat} (h : labelChar c = true) : pySpaces.contains c = false := by
  rw [labelChar_iff] at h
  simp only [pySpaces, List.contains_eq_mem, List.mem_cons, List.not_mem_nil, or_false, decide_eq_false_iff_not]
  omega

theorem labelChar_dot {c : Nat} (h : labelChar c = true) : c ≠ 46 := by
  rw [labelChar_iff] at h
  omega

theorem TextLabel.chars {l : Label} (h : TextLabel l) : ∀ c ∈ l, labelChar c = true := fun c hc => labelChar_iff.2 (h.2 c hc)

/-! ### Splitting and joining -/

theorem splitDot_label {l : Label} (h : ∀ c ∈ l, c ≠ 46) : splitDot l = [l] := by
  induction l with
  | nil => rfl
  | cons c l ih =>
    rw [splitDot, if_neg (h c (by simp)), ih (fun c hc => h c (by simp [hc]))]

theorem splitDot_append {l : Label} (h : ∀ c ∈ l, c ≠ 46) (t : List Nat) : splitDot (l ++ 46 :: t) = l :: splitDot t := by
  induction l with
  | nil => rw [List.nil_append, splitDot, if_pos rfl]
  | cons c l ih =>
    rw [List.cons_append, splitDot, if_neg (h c (by simp)), ih (fun c hc => h c (by simp [hc]))]

theorem splitDot_toText {p : Path} (hp : p ≠ []) (h : ∀ l ∈ p, ∀ c ∈ l, c ≠ 46) : splitDot (toText p) = p := by
  induction p with
  | nil => exact absurd rfl hp
  | cons l p ih =>
    cases p with
    | nil => exact splitDot_label (h l (by simp))
    | cons m p =>
      rw [toText, splitDot_append (h l (by simp)), ih (by simp) (fun l hl => h l (by simp [hl]))]
      simp

theorem splitDot_ne (t : List Nat) : splitDot t ≠ [] := by
  cases t with
  | nil => simp [splitDot]
  | cons c t =>
    rw [splitDot]
    split
    · simp
    · split <;> simp

theorem toText_splitDot (t : List Nat) : toText (splitDot t) = t := by
  induction t with
  | nil => rfl
  | cons c t ih =>
    rw [splitDot]
    cases e : splitDot t with
    | nil => exact absurd e (splitDot_ne t)
    | cons l rest =>
      rw [e] at ih
      split
      · rename_i hc
        rw [toText, ih, hc]; rfl
        simp
      · cases rest with
        | nil => simpa [toText] using ih
        | cons m rest => simpa [toText] using ih

/-- the characters of a text path: no spaces -/
theorem toText_chars {p : Path} (h : ∀ l ∈ p, TextLabel l) : ∀ c ∈ toText p, pySpaces.contains c = false := by
  induction p with
  | nil => simp [toText]
  | cons l p ih =>
    have hl : ∀ c ∈ l, pySpaces.contains c = false := fun c hc => labelChar_space ((h l (by simp)).chars c hc)
    cases p with
    | nil => exact hl
    | cons m p =>
      intro c hc
      rw [toText, List.mem_append, List.mem_cons] at hc
      · rcases hc with hc | rfl | hc
        · exact hl c hc
        · decide
        · exact ih (fun l hl => h l (by simp [hl])) c hc
      · simp

theorem dropWhile_none {t : List Nat} (h : ∀ c ∈ t, pySpaces.contains c = false) : t.dropWhile (pySpaces.contains ·) = t := by
  cases t with
  | nil => rfl
  | cons c t => rw [List.dropWhile_cons_of_neg]; rw [h c (by simp)]; simp

theorem strip_none {t : List Nat} (h : ∀ c ∈ t, pySpaces.contains c = false) : strip t = t := by
  unfold strip
  rw [dropWhile_none h, dropWhile_none (by simpa using h), List.reverse_reverse]

theorem toText_ne {p : Path} (h : TextPath p) : toText p ≠ [] := by
  intro e
  have := splitDot_toText h.1 (fun l hl c hc => labelChar_dot ((h.2 l hl).chars c hc))
  rw [e] at this
  have hm := h.2 [] (by rw [← this]; simp [splitDot])
  exact hm.1 rfl

theorem ofText_toText {p : Path} (h : TextPath p) : ofText (toText p) = p := by
  unfold ofText
  rw [if_neg (toText_ne h), strip_none (toText_chars h.2), splitDot_toText h.1 (fun l hl c hc => labelChar_dot ((h.2 l hl).chars c hc))]

/-! ### The validator -/

theorem matches_labels (t : List Nat) : ∀ inside, (∀ e, t ≠ e ++ [10]) → (matches? inside t = true ↔
    ∃ l rest, splitDot t = l :: rest ∧ (inside = true ∨ l ≠ []) ∧ (∀ c ∈ l, labelChar c = true) ∧ ∀ m ∈ rest, TextLabel m) := by
  induction t with
  | nil =>
    intro inside _
    simp [matches?, splitDot]
  | cons c t ih =>
    intro inside hnl
    have hnl' : ∀ e, t ≠ e ++ [10] := by
      intro e he
      exact hnl (c :: e) (by rw [he]; rfl)
    have hstep : matches? inside (c :: t) = if labelChar c then matches? true t else if c = 46 then inside && matches? false t else false := by
      by_cases h10 : c = 10 ∧ t = []
      · exfalso
        obtain ⟨rfl, rfl⟩ := h10
        exact hnl [] rfl
      · rw [matches?]
        rintro ⟨_⟩ ⟨_⟩
        exact h10 ⟨rfl, rfl⟩
    rw [hstep, splitDot]
    by_cases hl : labelChar c = true
    · rw [if_pos hl, if_neg (labelChar_dot hl), ih true hnl']
      constructor
      · rintro ⟨l, rest, e, _, h1, h2⟩
        rw [e]
        refine ⟨c :: l, rest, rfl, Or.inr (by simp), ?_, h2⟩
        intro d hd
        rcases List.mem_cons.1 hd with rfl | hd
        · exact hl
        · exact h1 d hd
      · rintro ⟨l, rest, e, _, h1, h2⟩
        cases e' : splitDot t with
        | nil => exact absurd e' (splitDot_ne t)
        | cons m rest' =>
          rw [e'] at e
          simp only [List.cons.injEq] at e
          obtain ⟨rfl, rfl⟩ := e
          exact ⟨m, rest', rfl, Or.inl rfl, fun d hd => h1 d (by simp [hd]), h2⟩
    · rw [if_neg hl]
      by_cases hd : c = 46
      · rw [if_pos hd, if_pos hd, Bool.and_eq_true, ih false hnl']
        constructor
        · rintro ⟨hi, l, rest, e, h1, h2, h3⟩
          refine ⟨[], splitDot t, rfl, Or.inl hi, by simp, ?_⟩
          rw [e]
          intro m hm
          rcases List.mem_cons.1 hm with rfl | hm
          · exact ⟨h1.resolve_left (by simp), fun d hd => labelChar_iff.1 (h2 d hd)⟩
          · exact h3 m hm
        · rintro ⟨l, rest, e, h1, h2, h3⟩
          simp only [List.cons.injEq] at e
          obtain ⟨rfl, rfl⟩ := e
          refine ⟨h1.resolve_right (by simp), ?_⟩
          cases e' : splitDot t with
          | nil => exact absurd e' (splitDot_ne t)
          | cons m rest' =>
            rw [e'] at h3
            have hm := h3 m (by simp)
            exact ⟨m, rest', rfl, Or.inr hm.1, hm.chars, fun k hk => h3 k (by simp [hk])⟩
      · rw [if_neg hd, if_neg hd]
        constructor
        · intro h; cases h
        · rintro ⟨l, rest, e, h1, h2, h3⟩
          cases e' : splitDot t with
          | nil => exact absurd e' (splitDot_ne t)
          | cons m rest' =>
            rw [e'] at e
            simp only [List.cons.injEq] at e
            obtain ⟨rfl, rfl⟩ := e
            exact absurd (h2 c (by simp)) hl

theorem matches_newline (t : List Nat) : ∀ inside, matches? inside (t ++ [10]) = true → matches? inside t = true := by
  induction t with
  | nil => intro inside h; simpa [matches?] using h
  | cons c t ih =>
    intro inside h
    have hstep : matches? inside ((c :: t) ++ [10]) =
        if labelChar c then matches? true (t ++ [10]) else if c = 46 then inside && matches? false (t ++ [10]) else false := by
      rw [List.cons_append, matches?]
      rintro ⟨_⟩ h
      simp at h
    rw [hstep] at h
    by_cases h10 : c = 10 ∧ t = []
    · obtain ⟨rfl, rfl⟩ := h10
      simp [labelChar] at h
    · rw [matches?]
      · split at h
        · rename_i hl; rw [if_pos hl]; exact ih _ h
        · rename_i hl
          rw [if_neg hl]
          split at h
          · rename_i hd
            rw [if_pos hd]
            rw [Bool.and_eq_true] at h ⊢
            exact ⟨h.1, ih _ h.2⟩
          · cases h
      · rintro ⟨_⟩ ⟨_⟩
        exact h10 ⟨rfl, rfl⟩

theorem matches_inner {inside : Bool} : ∀ {t : List Nat}, matches? inside t = true → ∀ e, t = e ++ [10] → ∀ d, e ≠ d ++ [10] := by
  intro t h e he d hd
  have h1 := matches_newline e inside (he ▸ h)
  rw [hd] at he
  subst he
  clear h1 hd
  induction d generalizing inside with
  | nil => simp [matches?, labelChar] at h
  | cons c d ih =>
    rw [List.cons_append, List.cons_append, matches?] at h
    · split at h
      · exact ih h
      · split at h
        · rw [Bool.and_eq_true] at h; exact ih h.2
        · cases h
    · rintro ⟨_⟩ h
      simp at h

theorem validates_labels {t : List Nat} (hnl : ∀ e, t ≠ e ++ [10]) : validates t = true ↔ TextPath (splitDot t) := by
  unfold validates
  rw [matches_labels t false hnl]
  constructor
  · rintro ⟨l, rest, e, h1, h2, h3⟩
    rw [e]
    refine ⟨by simp, ?_⟩
    intro m hm
    rcases List.mem_cons.1 hm with rfl | hm
    · exact ⟨h1.resolve_left (by simp), fun d hd => labelChar_iff.1 (h2 d hd)⟩
    · exact h3 m hm
  · intro h
    cases e : splitDot t with
    | nil => exact absurd e (splitDot_ne t)
    | cons l rest =>
      rw [e] at h
      have hl := h.2 l (by simp)
      exact ⟨l, rest, rfl, Or.inr hl.1, hl.chars, fun m hm => h.2 m (by simp [hm])⟩

theorem toText_newline {p : Path} (h : TextPath p) : ∀ e, toText p ≠ e ++ [10] := by
  intro e he
  have := toText_chars h.2 10 (by rw [he]; simp)
  exact absurd this (by decide)

theorem strip_newline {t : List Nat} (h : ∀ c ∈ t, pySpaces.contains c = false) (ht : t ≠ []) : strip (t ++ [10]) = t := by
  unfold strip
  have h1 : (t ++ [10]).dropWhile (pySpaces.contains ·) = t ++ [10] := by
    cases t with
    | nil => exact absurd rfl ht
    | cons c t => rw [List.cons_append, List.dropWhile_cons_of_neg]; rw [h c (by simp)]; simp
  rw [h1, List.reverse_append, List.reverse_singleton, List.singleton_append, List.dropWhile_cons_of_pos (by decide), dropWhile_none (by simpa using h),
    List.reverse_reverse]

/-! ### C57 -/

/-- C57 (writing and reading): a path whose labels are non-empty and made of letters, digits, underscores and hyphens passes the field's
validator as text; `save()` stores its labels joined by dots, whichever way the attribute holds it (a `PathValue`, a list, or the text); a query
uses the same text; and reading the column, the attribute, or the text of a form gives back the same labels. -/
theorem C57_roundtrip {p : Path} (h : TextPath p) :
    validates (toText p) = true ∧
    (∀ a ∈ [PathArg.value p, .list p, .text (toText p)], getDbPrep a = .ok (some (toText p)) ∧ getPrep a = .ok (some (toText p)) ∧
      toPython a = .ok (.value p) ∧ readAttr a = .ok (.value p)) ∧
    fromDb (some (toText p)) = .value p := by
  have h1 := ofText_toText h
  refine ⟨?_, ?_, ?_⟩
  · rw [validates_labels (toText_newline h), splitDot_toText h.1 (fun l hl c hc => labelChar_dot ((h.2 l hl).chars c hc))]
    exact h
  · intro a ha
    simp only [List.mem_cons, List.not_mem_nil, or_false] at ha
    rcases ha with rfl | rfl | rfl <;> simp [getDbPrep, getPrep, toPython, readAttr, pathValue, Except.map, h1]
  · rw [fromDb, h1]

/-- C57 (the validator): a text that passes the validator names a path whose labels are non-empty and made of the allowed characters, and is
stored as it is, except that a newline at its end is dropped. -/
theorem C57_validator {t : List Nat} (h : validates t = true) :
    TextPath (ofText t) ∧ ∃ t', getDbPrep (.text t) = .ok (some t') ∧ getPrep (.text t) = .ok (some t') ∧ (t = t' ∨ t = t' ++ [10]) ∧
      fromDb (some t') = .value (ofText t) := by
  have key : ∀ u, validates u = true → (∀ e, u ≠ e ++ [10]) → TextPath (ofText u) ∧ toText (ofText u) = u ∧ ofText u = splitDot u ∧
      ∀ c ∈ u, pySpaces.contains c = false := by
    intro u hu hnl
    have hp := (validates_labels hnl).1 hu
    have hc : ∀ c ∈ u, pySpaces.contains c = false := by
      have := toText_chars hp.2
      rwa [toText_splitDot] at this
    have hne : u ≠ [] := by
      rintro rfl
      cases hu
    have he : ofText u = splitDot u := by rw [ofText, if_neg hne, strip_none hc]
    exact ⟨he ▸ hp, by rw [he, toText_splitDot], he, hc⟩
  by_cases hnl : ∃ e, t = e ++ [10]
  · obtain ⟨e, rfl⟩ := hnl
    have he : validates e = true := matches_newline e false h
    obtain ⟨h1, h2, h3, h4⟩ := key e he (matches_inner h e rfl)
    have hne : e ≠ [] := by
      rintro rfl
      cases he
    have h5 : ofText (e ++ [10]) = ofText e := by
      rw [h3, ofText, if_neg (by simp), strip_newline h4 hne]
    rw [h5]
    refine ⟨h1, e, ?_, ?_, Or.inr rfl, rfl⟩
    · rw [getDbPrep, h5, h2]
    · simp [getPrep, pathValue, Except.map, h5, h2]
  · obtain ⟨h1, h2, h3, h4⟩ := key t h (fun e he => hnl ⟨e, he⟩)
    refine ⟨h1, t, ?_, ?_, Or.inl rfl, rfl⟩
    · rw [getDbPrep, h2]
    · simp [getPrep, pathValue, Except.map, h2]

theorem IsLabel.text {l : Label} (h : IsLabel l) : TextLabel l := by
  refine ⟨h.1, fun c hc => ?_⟩
  have := h.2 c hc
  omega

theorem toText_append {p s : Path} (hp : p ≠ []) (hs : s ≠ []) : toText (p ++ s) = toText p ++ 46 :: toText s := by
  induction p with
  | nil => exact absurd rfl hp
  | cons l p ih =>
    cases p with
    | nil => cases s with
      | nil => exact absurd rfl hs
      | cons m s => rfl
    | cons m p =>
      have := ih (by simp)
      simp only [List.cons_append, toText] at this ⊢
      rw [this, List.append_assoc]
      rfl

theorem splitDot_prefix {p : Path} (hp : p ≠ []) (h : ∀ l ∈ p, ∀ c ∈ l, c ≠ 46) (u : List Nat) :
    splitDot (toText p ++ 46 :: u) = p ++ splitDot u := by
  induction p with
  | nil => exact absurd rfl hp
  | cons l p ih =>
    cases p with
    | nil => exact splitDot_append (h l (by simp)) u
    | cons m p =>
      have := ih (by simp) (fun l hl => h l (by simp [hl]))
      rw [toText, List.append_assoc, List.cons_append, splitDot_append (h l (by simp)), this]
      · rfl
      · simp

theorem toText_prefix {p q : Path} (hp : TextPath p) (hq : TextPath q) :
    p <+: q ↔ toText q = toText p ∨ toText p ++ [46] <+: toText q := by
  constructor
  · rintro ⟨s, rfl⟩
    by_cases hs : s = []
    · left; rw [hs, List.append_nil]
    · right
      rw [toText_append hp.1 hs]
      exact ⟨toText s, by simp⟩
  · rintro (e | ⟨u, e⟩)
    · rw [← ofText_toText hp, ← e, ofText_toText hq]
      exact List.prefix_rfl
    · have h1 := splitDot_prefix hp.1 (fun l hl c hc => labelChar_dot ((hp.2 l hl).chars c hc)) u
      have h2 := splitDot_toText hq.1 (fun l hl c hc => labelChar_dot ((hq.2 l hl).chars c hc))
      rw [← e, List.append_assoc, List.singleton_append, h1] at h2
      exact ⟨_, h2⟩

/-- C57 (stored paths): in a consistent LT table every stored path passes the validator as text and is read back as it was; two rows never have
the same text; and a row is below another, or is it, exactly when its text is the other's or begins with the other's and a dot. -/
theorem C57_stored (h : Consistent db) :
    (∀ r ∈ db.rows, validates (toText r.path) = true ∧ fromDb (some (toText r.path)) = .value r.path) ∧
    (db.rows.map (fun r => toText r.path)).Nodup ∧
    ∀ r ∈ db.rows, ∀ q ∈ db.rows, r.path <+: q.path ↔ toText q.path = toText r.path ∨ toText r.path ++ [46] <+: toText q.path := by
  have ht : ∀ r ∈ db.rows, TextPath r.path := fun r hr => ⟨(h.labels r hr).1, fun l hl => ((h.labels r hr).2 l hl).text⟩
  refine ⟨fun r hr => ⟨(C57_roundtrip (ht r hr)).1, (C57_roundtrip (ht r hr)).2.2⟩, ?_, fun r hr q hq => toText_prefix (ht r hr) (ht q hq)⟩
  rw [show (fun r : Row => toText r.path) = toText ∘ Row.path from rfl, ← List.map_map]
  refine List.Nodup.map_on ?_ h.paths
  intro a ha b hb e
  obtain ⟨r, hr, rfl⟩ := List.mem_map.1 ha
  obtain ⟨q, hq, rfl⟩ := List.mem_map.1 hb
  rw [← ofText_toText (ht r hr), e, ofText_toText (ht q hq)]

/-- C57 fails for other values: a path of one empty label is stored as the empty text and comes back as the empty path; a label with a dot or
spaces comes back as other labels; and a tuple of labels can be used in a query but not saved. -/
theorem C57_lost :
    (getDbPrep (.list [[]]) = .ok (some []) ∧ fromDb (some []) = .value []) ∧
    (getDbPrep (.list [[65, 46, 66]]) = .ok (some [65, 46, 66]) ∧ fromDb (some [65, 46, 66]) = .value [[65], [66]]) ∧
    (getDbPrep (.list [[32, 65]]) = .ok (some [32, 65]) ∧ fromDb (some [32, 65]) = .value [[65]]) ∧
    (getPrep (.iterable [[65]]) = .ok (some [65]) ∧ getDbPrep (.iterable [[65]]) = .error .valueError) := by
  decide

/-- C57 cases: `A.0B`, a text with a newline at its end, the table `exDB` -/
example : TextPath [[65], [48, 66]] ∧ toText [[65], [48, 66]] = [65, 46, 48, 66] ∧ validates [65, 46, 48, 66, 10] = true ∧
    validates [65, 46, 46, 66] = false ∧ validates [] = false ∧ validates [10] = false ∧ Consistent exDB ∧
    ofText [65, 46, 48, 66, 10] = [[65], [48, 66]] := by
  refine ⟨⟨by decide, ?_⟩, by decide, by decide, by decide, by decide, by decide, consistent_iff.2 exDB_inv, by decide⟩
  unfold TextLabel
  decide

end Verif.LT
