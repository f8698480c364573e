/-
Facts about forests used for the move form.
-/
import Verif.FormModel
import Verif.NearForest
import Verif.DFS
import Verif.SortedHead

namespace Verif

variable {F : Forest}

/-- listings are complete: only the nodes below the top, all of them -/
theorem TreeListing.mem_all {ids l : List Nat} (hF : F.IsForestOn ids) (h : TreeListing F none none l) (k : Nat) : k ∈ l ↔ k ∈ ids := by
  obtain ⟨full, base, ⟨hd, _⟩, _, keep, rfl, hk⟩ := h
  obtain ⟨l', hd', _, hp⟩ := hF.listing
  rw [← hp.mem_iff, Forest.DFS.mem hd', List.mem_filter, ← Forest.DFS.mem hd k]
  constructor
  · exact fun h => h.1
  · exact fun h => ⟨h, (hk k h).2 (by simp)⟩

theorem TreeListing.mem_branch {x : Nat} {l : List Nat} (h : TreeListing F (some x) none l) (k : Nat) :
    k ∈ l ↔ k = x ∨ F.Desc x k := by
  obtain ⟨full, base, ⟨hd, _⟩, _, keep, rfl, hk⟩ := h
  rw [List.mem_filter]
  have hm := Forest.DFS.mem hd k
  simp only [List.mem_singleton, exists_eq_left] at hm
  rw [← hm]
  constructor
  · exact fun h => h.1
  · exact fun h => ⟨h, (hk k h).2 (by simp)⟩

theorem formRefs_edit {ids tree branch : List Nat} {x : Nat} (hF : F.IsForestOn ids) (ht : TreeListing F none none tree)
    (hb : TreeListing F (some x) none branch) (k : Nat) : k ∈ formRefs tree branch ↔ k ∈ ids ∧ F.Offered x k := by
  rw [mem_formRefs, ht.mem_all hF, hb.mem_branch]
  unfold Forest.Offered
  tauto

theorem formRefs_add {ids tree : List Nat} (hF : F.IsForestOn ids) (ht : TreeListing F none none tree) (k : Nat) :
    k ∈ formRefs tree [] ↔ k ∈ ids := by
  rw [mem_formRefs, ht.mem_all hF]; simp

theorem Forest.Offered.not_refused {x r : Nat} (h : F.Offered x r) (pos : Pos) : ¬ F.MoveRefused x r pos := by
  rintro (hd | ⟨_, e⟩)
  · exact h.2 hd
  · exact h.1 e

theorem moveAsked_form {x r : Nat} {p : Option Nat} (h : r ≠ x) {pos : Pos} (hpos : pos ∈ formPositions false) :
    F.moveAsked x p r pos = F.move x (pos.dest p r) (formSlot r pos) := by
  simp only [formPositions, Bool.false_eq_true, if_false, List.mem_cons, List.not_mem_nil, or_false] at hpos
  rcases hpos with rfl | rfl | rfl
  · rfl
  · simp [Forest.moveAsked, Forest.sibMove, h, Pos.dest, Pos.isChild, formSlot]
  · simp [Forest.moveAsked, Forest.sibMove, h, Pos.dest, Pos.isChild, formSlot]

theorem formPos_plain {pos : Pos} (hpos : pos ∈ formPositions false) : IsPlainPos pos := by
  simp only [formPositions, Bool.false_eq_true, if_false, List.mem_cons, List.not_mem_nil, or_false] at hpos
  unfold IsPlainPos IsSibPos
  rcases hpos with rfl | rfl | rfl <;> simp

theorem formPos_sorted {pos : Pos} (hpos : pos ∈ formPositions true) : preparePosForMove true (some pos) = .ok pos := by
  simp only [formPositions, if_true, List.mem_cons, List.not_mem_nil, or_false] at hpos
  rcases hpos with rfl | rfl <;> decide

/-- nothing to filter out -/
theorem filter_absent {k : Nat} {l : List Nat} (hk : k ∉ l) : l.filter (· ≠ k) = l := by
  refine List.filter_eq_self.2 (fun b hb => ?_)
  have : b ≠ k := by rintro rfl; exact hk hb
  simpa using this

/-- a new node put somewhere and then moved is a new node put at the second place -/
theorem put_move {k : Nat} (hk : ∀ q, k ∉ F q) (q p : Option Nat) (s s' : Slot) : (F.put q s' k).move k p s = F.put p s k := by
  have : (F.put q s' k).remove k = F := by
    funext r
    unfold Forest.remove Forest.put
    split
    · exact filter_ins (hk r)
    · exact filter_absent (hk r)
  unfold Forest.move
  rw [this]

/-- every node may be chosen for a new one, also after the new one was put somewhere -/
theorem offered_new {k r : Nat} (hk : F (some k) = []) (hr : r ≠ k) (q : Option Nat) (s : Slot) (hq : q ≠ some k) :
    (F.put q s k).Offered k r := by
  refine ⟨hr, ?_⟩
  intro hd
  have : ∀ d, (F.put q s k).Desc k d → False := by
    intro d hd
    have hnil : (F.put q s k) (some k) = [] := by unfold Forest.put; rw [if_neg (Ne.symm hq), hk]
    induction hd with
    | child h => rw [hnil] at h; simp at h
    | step _ _ ih => exact ih
  exact this r hd

/-- Asking for the place that the form shows for a node asks for nothing. -/
theorem shown_fixed (hu : ∀ p q k, k ∈ F p → k ∈ F q → p = q) (hn : ∀ p, (F p).Nodup) {x : Nat} :
    (∀ r p, F.ShowsPlace x (some r) .right → r ∈ F p → F.move x p (.after r) = F) ∧
    (∀ ref, F.ShowsPlace x ref .firstChild → F.move x ref .first = F) := by
  have hother : ∀ p q, x ∈ F p → q ≠ p → (F q).filter (· ≠ x) = F q := by
    intro p q hx hq
    exact filter_absent (fun hb => hq (hu q p x hb hx))
  constructor
  · rintro r p ⟨p', l₁, l₂, e⟩ hr
    have hr' : r ∈ F p' := by rw [e]; simp
    obtain rfl := hu p p' r hr hr'
    have hx : x ∈ F p := by rw [e]; simp
    have hnd := hn p
    rw [e, List.nodup_append, List.nodup_cons, List.nodup_cons] at hnd
    obtain ⟨_, ⟨h1, h2, _⟩, h3⟩ := hnd
    funext q
    unfold Forest.move Forest.put Forest.remove
    split
    · rename_i hq
      subst hq
      have hf : (F q).filter (· ≠ x) = l₁ ++ r :: l₂ := by
        rw [e, List.filter_append, List.filter_cons_of_pos (by simp at h1 ⊢; tauto), List.filter_cons_of_neg (by simp)]
        rw [filter_absent (fun hb => h3 x hb x (by simp) rfl), filter_absent h2]
      rw [hf, e]
      exact insertAfter_append (fun hm => h3 r hm r (by simp) rfl)
    · rename_i hq
      exact hother p q hx hq
  · intro ref h
    have h : ∃ l, F ref = x :: l := by cases ref <;> exact h
    obtain ⟨l, e⟩ := h
    have hx : x ∈ F ref := by rw [e]; simp
    have hnd := hn ref
    rw [e, List.nodup_cons] at hnd
    funext q
    unfold Forest.move Forest.put Forest.remove
    split
    · rename_i hq
      subst hq
      rw [e, List.filter_cons_of_neg (by simp), filter_absent hnd.1]
      rfl
    · rename_i hq
      exact hother ref q hx hq

/-! ### Submitting -/

theorem changedData_new (ref : Option Nat) (pos : Pos) (fields : List Nat) (o : List (Nat × Bool)) :
    (changedData none ref pos fields).Touches o := Or.inr (Or.inl rfl)

theorem changedData_edit (i : Option Nat × Pos) (ref : Option Nat) (pos : Pos) (fields : List Nat) (o : List (Nat × Bool)) :
    (changedData (some i) ref pos fields).Touches o ↔ (ref, pos) ≠ i ∨ ∃ f ∈ fields, (f, false) ∈ o := by
  unfold changedData Changed.Touches
  obtain ⟨r, p⟩ := i
  simp only [decide_eq_true_eq, ne_eq, Prod.mk.injEq, not_and_or, or_assoc]

/-- A new instance is always placed. -/
theorem formSubmit_new {σ ρ : Type} (m : Manager σ ρ) (nav : σ → ρ → NavAnswers) (key : ρ → Nat) (db : σ) (inst : ρ) (fields : List Nat)
    (ref : Option ρ) (pos : Pos) (o : List (Nat × Bool)) :
    ∃ ch : Changed, ch.Touches o ∧ formSubmit m nav key db none inst fields ref pos = formSave m db inst true ch ref pos :=
  ⟨_, changedData_new _ _ _ _, rfl⟩

/-- An existing instance is placed unless the form is submitted as it was shown, and then it is asked to be where it is. -/
theorem formSubmit_edit {σ ρ : Type} {m : Manager σ ρ} (ho : m.orderBy = []) (nav : σ → ρ → NavAnswers) (key : ρ → Nat) {db : σ} {x : ρ}
    (hu : ∀ p q k, k ∈ F p → k ∈ F q → p = q) (hn : ∀ p, (F p).Nodup) (hnav : NavSpec F (key x) (nav db x)) (inst : ρ) (fields : List Nat)
    (ref : Option ρ) (pos : Pos) :
    ∃ ch : Changed, formSubmit m nav key db (some x) inst fields ref pos = formSave m db inst false ch ref pos ∧
      (ch.Touches m.orderBy ∨ ¬ ch.Touches m.orderBy ∧ ∀ p s, F.FormAsks (ref.map key) pos p s → F.move (key x) p s = F ∧ key x ∈ F p) := by
  obtain ⟨r₀, p₀, e, hp, hshow⟩ := formInitial_shows hnav (fun p q => hu p q _) false
  refine ⟨changedData (some (r₀, p₀)) (ref.map key) pos fields, ?_, ?_⟩
  · unfold formSubmit
    simp only [ordered_false ho, e]
  · by_cases h : (ref.map key, pos) = (r₀, p₀)
    · right
      refine ⟨by rw [changedData_edit, ho]; simp [h], ?_⟩
      rw [Prod.mk.injEq] at h
      obtain ⟨h1, h2⟩ := h
      rw [h1, h2]
      intro p s has
      have hf := shown_fixed hu hn (x := key x)
      simp only [formPositions, Bool.false_eq_true, if_false, List.mem_cons, List.not_mem_nil, or_false] at hp
      cases r₀ with
      | none =>
        obtain ⟨rfl, rfl⟩ := has
        rcases hp with rfl | rfl | rfl
        · exact ⟨hf.2 none hshow, by obtain ⟨l, e⟩ := hshow; rw [e]; simp⟩
        · exact hshow.elim
        · exact hshow.elim
      | some r =>
        obtain ⟨q, hq, rfl, rfl⟩ := has
        rcases hp with rfl | rfl | rfl
        · exact ⟨hf.2 (some r) hshow, by obtain ⟨l, e⟩ := hshow; show _ ∈ F (some r); rw [e]; simp⟩
        · exact hshow.elim
        · refine ⟨hf.1 r q hshow hq, ?_⟩
          obtain ⟨q', l₁, l₂, e⟩ := hshow
          obtain rfl := hu q q' r hq (by rw [e]; simp)
          show _ ∈ F q
          rw [e]; simp
    · left
      rw [changedData_edit]
      exact Or.inl h

/-- The same with `node_order_by`: unless the form is submitted as it was shown, with no order field reported as changed. -/
theorem formSubmit_edit_sorted {σ ρ : Type} {m : Manager σ ρ} (ho : m.orderBy ≠ []) (nav : σ → ρ → NavAnswers) (key : ρ → Nat) {db : σ} {x : ρ}
    (hinit : ∃ ref pos, formInitial true (nav db x) = .ok (ref, pos) ∧ pos ∈ formPositions true ∧
      F.ShowsPlace (key x) ref pos) (inst : ρ) (fields : List Nat) (ref : Option ρ) (pos : Pos) :
    ∃ ch : Changed, formSubmit m nav key db (some x) inst fields ref pos = formSave m db inst false ch ref pos ∧
      (ch.Touches m.orderBy ∨ ¬ ch.Touches m.orderBy ∧ (∀ p, F.FormAsksBelow (ref.map key) pos p → key x ∈ F p) ∧
        ∀ f ∈ fields, (f, false) ∉ m.orderBy) := by
  obtain ⟨r₀, p₀, e, hp, hshow⟩ := hinit
  refine ⟨changedData (some (r₀, p₀)) (ref.map key) pos fields, ?_, ?_⟩
  · unfold formSubmit
    simp only [ordered_true ho, e]
  · rw [changedData_edit]
    by_cases h : (ref.map key, pos) = (r₀, p₀)
    · by_cases hf : ∃ f ∈ fields, (f, false) ∈ m.orderBy
      · exact Or.inl (Or.inr hf)
      · right
        refine ⟨by rintro (h' | h'); exacts [h' h, hf h'], ?_, fun f h1 h2 => hf ⟨f, h1, h2⟩⟩
        rw [Prod.mk.injEq] at h
        obtain ⟨h1, h2⟩ := h
        rw [h1, h2]
        intro p has
        simp only [formPositions, if_true, List.mem_cons, List.not_mem_nil, or_false] at hp
        rcases hp with rfl | rfl
        · cases r₀ with
          | none => rw [show p = none from has]; exact hshow
          | some r =>
            obtain ⟨q, _, rfl⟩ := has
            exact hshow
        · cases r₀ <;> exact hshow.elim
    · exact Or.inl (Or.inl h)

/-- there is a name for every place in the forest -/
theorem shown_slot (hu : ∀ p q k, k ∈ F p → k ∈ F q → p = q) (hn : ∀ p, (F p).Nodup) {x : Nat} {p : Option Nat} (hx : x ∈ F p) :
    ∃ s, F.move x p s = F := by
  obtain ⟨l₁, l₂, e⟩ := List.append_of_mem hx
  rcases List.eq_nil_or_concat l₁ with rfl | ⟨l, r, rfl⟩
  · exact ⟨.first, (shown_fixed hu hn).2 p (by cases p <;> exact ⟨l₂, e⟩)⟩
  · rw [List.concat_eq_append] at e
    have e' : F p = l ++ r :: x :: l₂ := by rw [e]; simp
    exact ⟨.after r, (shown_fixed hu hn).1 r p ⟨p, l, l₂, e'⟩ (by rw [e']; simp)⟩

/-! ### Editing values -/

theorem keyLt_congr {ob : List (Nat × Bool)} {a a' b b' : Vals} (ha : ∀ e ∈ ob, fieldOf a e.1 = fieldOf a' e.1)
    (hb : ∀ e ∈ ob, fieldOf b e.1 = fieldOf b' e.1) : keyLt ob a b ↔ keyLt ob a' b' := by
  induction ob with
  | nil => exact Iff.rfl
  | cons e ob ih =>
    obtain ⟨f, d⟩ := e
    rw [keyLt_cons, keyLt_cons, ha (f, d) (by simp), hb (f, d) (by simp), ih (fun e he => ha e (by simp [he])) (fun e he => hb e (by simp [he]))]

theorem lookup_edit {D : List (Nat × Vals)} {k a : Nat} {v : Vals} (h : a ≠ k) : (editData D k v).lookup a = D.lookup a := by
  unfold editData
  induction D with
  | nil => rfl
  | cons e D ih =>
    obtain ⟨b, w⟩ := e
    rw [List.map_cons]
    simp only
    by_cases hb : b = k
    · subst hb
      rw [if_pos rfl, List.lookup_cons, List.lookup_cons, ih]
      have : (a == b) = false := by simpa using h
      rw [this]
    · rw [if_neg hb, List.lookup_cons, List.lookup_cons, ih]

theorem lookup_edit_same {D : List (Nat × Vals)} {k : Nat} {v w : Vals} (h : D.lookup k = some w) : (editData D k v).lookup k = some v := by
  unfold editData
  induction D with
  | nil => simp at h
  | cons e D ih =>
    obtain ⟨a, u⟩ := e
    rw [List.map_cons]
    by_cases ha : a = k
    · subst ha; simp
    · rw [if_neg ha, List.lookup_cons]
      have : (k == a) = false := by simpa using fun e => ha e.symm
      rw [List.lookup_cons, this] at h
      rw [this]
      exact ih h

/-- a change of other fields leaves a sorted tree sorted -/
theorem sortedBy_untouched {ob : List (Nat × Bool)} {D : List (Nat × Vals)} (h : F.SortedBy ob (valsIn D)) {k : Nat} {w v : Vals}
    (hk : D.lookup k = some w) (hv : ∀ e ∈ ob, fieldOf v e.1 = fieldOf w e.1) : F.SortedBy ob (valsIn (editData D k v)) := by
  have hsame : ∀ a, ∀ e ∈ ob, fieldOf (valsIn (editData D k v) a) e.1 = fieldOf (valsIn D a) e.1 := by
    intro a e he
    by_cases ha : a = k
    · subst ha
      unfold valsIn
      rw [lookup_edit_same hk, hk]
      exact hv e he
    · unfold valsIn
      rw [lookup_edit ha]
  intro p
  refine (h p).imp ?_
  intro a b hab
  rwa [keyLt_congr (hsame b) (hsame a)]

theorem editData_nonNull {ob : List (Nat × Bool)} {D : List (Nat × Vals)} {k : Nat} {v : Vals} (h : ∀ e ∈ D, NonNull ob e.2) (hv : NonNull ob v) :
    ∀ e ∈ editData D k v, NonNull ob e.2 := by
  intro e he
  obtain ⟨e', he', rfl⟩ := List.mem_map.1 he
  split
  · exact hv
  · exact h e' he'

/-- after an edit all but the edited node are in order -/
theorem sortedBy_edit {ob : List (Nat × Bool)} {D : List (Nat × Vals)} (h : F.SortedBy ob (valsIn D)) (k : Nat) (v : Vals) :
    (F.remove k).SortedBy ob (valsIn (editData D k v)) := by
  intro p
  refine ((SortedBy.remove h k) p).imp_of_mem ?_
  intro a b ha hb hab
  have e : ∀ c ∈ F.remove k p, valsIn (editData D k v) c = valsIn D c := by
    intro c hc
    have hne : c ≠ k := by simpa using (List.mem_filter.1 hc).2
    unfold valsIn
    rw [lookup_edit hne]
  rw [e a ha, e b hb]
  exact hab

theorem lookup_mem {D : List (Nat × Vals)} (hnd : (D.map Prod.fst).Nodup) {k : Nat} {v : Vals} (h : (k, v) ∈ D) : D.lookup k = some v := by
  have h1 := valsIn_mem hnd h
  unfold valsIn at h1
  cases e : D.lookup k with
  | some w => rw [e] at h1; rw [← h1]; rfl
  | none =>
    rw [List.lookup_eq_none_iff] at e
    simpa using e (k, v) h

theorem sortedData_untouched {ob : List (Nat × Bool)} {D : List (Nat × Vals)} (h : SortedData ob F D) (hnd : (D.map Prod.fst).Nodup)
    {k : Nat} {w v : Vals} (hk : (k, w) ∈ D) (hn : NonNull ob v) (hv : ∀ e ∈ ob, fieldOf v e.1 = fieldOf w e.1) :
    SortedData ob F (editData D k v) :=
  ⟨editData_nonNull h.nonNull hn, sortedBy_untouched h.sorted (lookup_mem hnd hk) hv⟩

/-- no order field is reported as changed, and all of them are ascending: their values are the same -/
theorem order_same {ob : List (Nat × Bool)} (hasc : ∀ e ∈ ob, e.2 = false) {fields : List Nat} {v w : Vals}
    (hf : ∀ f, f ∉ fields → fieldOf v f = fieldOf w f) (h : ∀ f ∈ fields, (f, false) ∉ ob) : ∀ e ∈ ob, fieldOf v e.1 = fieldOf w e.1 := by
  intro e he
  refine hf _ (fun hm => h e.1 hm ?_)
  rwa [← hasc e he]

/-- a list that contains `k`, not at its end, contains something after it -/
theorem exists_after {l : List Nat} {k : Nat} (hk : k ∈ l) (hl : l.getLast? ≠ some k) : ∃ l₁ s l₂, l = l₁ ++ k :: s :: l₂ := by
  obtain ⟨l₁, l₂, rfl⟩ := List.append_of_mem hk
  cases l₂ with
  | nil => simp at hl
  | cons s l₂ => exact ⟨l₁, s, l₂, rfl⟩

end Verif
