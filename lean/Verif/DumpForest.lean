/-
When the loop of `dump_bulk` shows a forest.
-/
import Verif.DumpLemmas
import Verif.DFS

namespace Verif

variable {ρ κ : Type} [BEq κ] [LawfulBEq κ] {key : ρ → κ} {place : ρ → Except Err (Option κ)} {pk : ρ → Nat} {F : Forest} {cs : List Nat}

/-- Every row comes after its parent, and the rows below a row, in their order, are its children in `F`. -/
theorem dumps_of_lists {rs : List ρ} (hinj : ∀ a ∈ rs, ∀ b ∈ rs, key a = key b → a = b) (hnd : rs.Nodup)
    (hord : ∀ pre r post, rs = pre ++ r :: post → place r = .ok none ∨ ∃ a ∈ pre, place r = .ok (some (key a)))
    (hkids : ∀ a ∈ rs, (rs.filter (placedBelow key place a)).map pk = F (some (pk a)))
    (htops : (rs.filter (placedTop place)).map pk = cs) {vals : ρ → Vals} {v : Nat → Vals} (hv : ∀ r ∈ rs, v (pk r) = vals r) :
    ∃ ret, dumpLoop key place rs .nil = .ok ret ∧ (∀ keep, Dumps F v keep cs (ret.map (itemOf pk vals keep))) := by
  obtain ⟨ret, e, hs⟩ := dumpLoop_ok hinj hnd hord
  refine ⟨ret, e, fun keep => ⟨ret.map pk, ?_, ?_⟩⟩
  · rw [← htops]
    have hsub : ∀ a ∈ ret.labels, a ∈ rs := by
      intro a ha
      rcases hs.mem ha with h | ⟨_, _, h⟩ <;> exact (List.mem_filter.1 h).1
    exact hs.map (kids' := fun k => F (some k)) (fun a ha => (hkids a (hsub a ha)).symm)
  · rw [Nest.map_map]
    refine Nest.map_congr (fun a ha => ?_)
    have : a ∈ rs := by
      rcases hs.mem ha with h | ⟨_, _, h⟩ <;> exact (List.mem_filter.1 h).1
    simp [itemOf, hv a this]

/-! ### Rows in depth-first order -/

theorem Forest.DFS.top_sub {l : List Nat} (h : F.DFS cs l) : ∀ c ∈ cs, c ∈ l := by
  induction h with
  | nil => simp
  | @cons c cs l₁ l₂ _ _ _ ih2 =>
    intro x hx
    simp only [List.mem_cons, List.mem_append] at hx ⊢
    rcases hx with rfl | hx
    · exact Or.inl rfl
    · exact Or.inr (Or.inr (ih2 x hx))

theorem Forest.DFS.parent_before {l : List Nat} (h : F.DFS cs l) :
    ∀ pre x post, l = pre ++ x :: post → x ∈ cs ∨ ∃ a ∈ pre, x ∈ F (some a) := by
  induction h with
  | nil => intro pre x post e; cases pre <;> cases e
  | @cons c cs l₁ l₂ _ _ ih1 ih2 =>
    intro pre x post e
    cases pre with
    | nil => simp only [List.nil_append, List.cons.injEq] at e; exact Or.inl (by simp [e.1])
    | cons b pre =>
      simp only [List.cons_append, List.cons.injEq] at e
      obtain ⟨rfl, e⟩ := e
      rw [List.append_eq_append_iff] at e
      rcases e with ⟨a', e1, e2⟩ | ⟨b', e1, e2⟩
      · -- pre = l₁ ++ a', l₂ = a' ++ x :: post
        rcases ih2 a' x post e2 with h | ⟨a, ha, h⟩
        · exact Or.inl (List.mem_cons_of_mem _ h)
        · exact Or.inr ⟨a, by rw [e1]; simp [ha], h⟩
      · -- l₁ = pre ++ b', x :: post = b' ++ l₂
        cases b' with
        | nil =>
          simp only [List.append_nil] at e1
          simp only [List.nil_append] at e2
          rcases ih2 [] x post (by rw [← e2]; simp) with h | ⟨a, ha, h⟩
          · exact Or.inl (List.mem_cons_of_mem _ h)
          · simp at ha
        | cons y b' =>
          simp only [List.cons_append, List.cons.injEq] at e2
          obtain ⟨rfl, _⟩ := e2
          rcases ih1 pre x b' e1 with h | ⟨a, ha, h⟩
          · exact Or.inr ⟨c, by simp, h⟩
          · exact Or.inr ⟨a, by simp [ha], h⟩

theorem Forest.DFS.filter_top {l : List Nat} (h : F.DFS cs l) (hnd : l.Nodup) : l.filter (fun x => decide (x ∈ cs)) = cs := by
  induction h with
  | nil => rfl
  | @cons c cs l₁ l₂ _ h2 _ ih2 =>
    simp only [List.nodup_cons, List.nodup_append, List.mem_append, not_or] at hnd
    obtain ⟨⟨hc1, hc2⟩, hn1, hn2, hdis⟩ := hnd
    rw [List.filter_cons_of_pos (by simp), List.filter_append]
    have e1 : l₁.filter (fun x => decide (x ∈ c :: cs)) = [] := by
      rw [List.filter_eq_nil_iff]
      intro x hx
      simp only [List.mem_cons, decide_eq_true_eq, not_or]
      exact ⟨by rintro rfl; exact hc1 hx, fun h => hdis x hx x (h2.top_sub x h) rfl⟩
    have e2 : l₂.filter (fun x => decide (x ∈ c :: cs)) = l₂.filter (fun x => decide (x ∈ cs)) := by
      refine List.filter_congr (fun x hx => ?_)
      have : x ≠ c := by rintro rfl; exact hc2 hx
      simp [this]
    rw [e1, e2, ih2 hn2, List.nil_append]

theorem Forest.DFS.filter_kids {l : List Nat} (h : F.DFS cs l) (hnd : l.Nodup)
    (huniq : ∀ p q k, k ∈ F (some p) → k ∈ F (some q) → p = q) (hcs : ∀ p ∈ l, ∀ c ∈ cs, c ∉ F (some p)) (p : Nat) :
    (p ∈ l → l.filter (fun x => decide (x ∈ F (some p))) = F (some p)) ∧
    (p ∉ l → l.filter (fun x => decide (x ∈ F (some p))) = cs.filter (fun x => decide (x ∈ F (some p)))) := by
  induction h with
  | nil => simp
  | @cons c cs l₁ l₂ h1 h2 ih1 ih2 =>
    simp only [List.nodup_cons, List.nodup_append, List.mem_append, not_or] at hnd
    obtain ⟨⟨hc1, hc2⟩, hn1, hn2, hdis⟩ := hnd
    simp only [List.mem_cons, List.mem_append] at hcs ⊢
    have ih1 := ih1 hn1 (by
      intro q hq x hx hx'
      rw [huniq c q x hx hx'] at hc1
      exact hc1 hq)
    have ih2 := ih2 hn2 (fun q hq x hx => hcs q (Or.inr (Or.inr hq)) x (Or.inr hx))
    -- the children of another node than `c`
    have hother : p ≠ c → (F (some c)).filter (fun x => decide (x ∈ F (some p))) = [] := by
      intro hp
      rw [List.filter_eq_nil_iff]
      intro x hx hx'
      exact hp (huniq p c x (by simpa using hx') hx)
    have hno : p ∈ (c :: (l₁ ++ l₂)) → cs.filter (fun x => decide (x ∈ F (some p))) = [] := by
      intro hp
      rw [List.filter_eq_nil_iff]
      intro x hx hx'
      exact hcs p (by simpa using hp) x (Or.inr hx) (by simpa using hx')
    constructor
    · intro hp
      have hcp : c ∉ F (some p) := hcs p hp c (Or.inl rfl)
      rw [List.filter_cons_of_neg (by simpa using hcp), List.filter_append]
      have hno' := hno (by simpa using hp)
      rcases hp with rfl | hp | hp
      · rw [ih1.2 hc1, ih2.2 hc2, hno', List.append_nil]
        exact List.filter_eq_self.2 (by simp)
      · rw [ih1.1 hp, ih2.2 (fun h => hdis p hp p h rfl), hno', List.append_nil]
      · have hpc : p ≠ c := by rintro rfl; exact hc2 hp
        rw [ih1.2 (fun h => hdis p h p hp rfl), hother hpc, ih2.1 hp, List.nil_append]
    · intro hp
      have hpc : p ≠ c := fun h => hp (Or.inl h)
      rw [List.filter_cons, List.filter_append, ih1.2 (fun h => hp (Or.inr (Or.inl h))), hother hpc,
        ih2.2 (fun h => hp (Or.inr (Or.inr h))), List.nil_append, List.filter_cons]

/-- Rows in the depth-first order of the part of `F` below and including `cs`. -/
theorem dumps_of_dfs {rs : List ρ} (hd : F.DFS cs (rs.map pk)) (hnd : (rs.map pk).Nodup)
    (huniq : ∀ p q k, k ∈ F (some p) → k ∈ F (some q) → p = q) (hcs : ∀ p ∈ rs.map pk, ∀ c ∈ cs, c ∉ F (some p))
    (hinj : ∀ a ∈ rs, ∀ b ∈ rs, key a = key b → a = b)
    (htop : ∀ x ∈ rs, pk x ∈ cs → place x = .ok none)
    (hbelow : ∀ x ∈ rs, ∀ a ∈ rs, pk x ∈ F (some (pk a)) → place x = .ok (some (key a)))
    {vals : ρ → Vals} {v : Nat → Vals} (hv : ∀ r ∈ rs, v (pk r) = vals r) :
    ∃ ret, dumpLoop key place rs .nil = .ok ret ∧ (∀ keep, Dumps F v keep cs (ret.map (itemOf pk vals keep))) := by
  have hpk : ∀ a ∈ rs, ∀ b ∈ rs, pk a = pk b → a = b := fun a ha b hb e => List.inj_on_of_nodup_map hnd ha hb e
  have hord : ∀ pre r post, rs = pre ++ r :: post → place r = .ok none ∨ ∃ a ∈ pre, place r = .ok (some (key a)) := by
    intro pre r post e
    have hr : r ∈ rs := by rw [e]; simp
    rcases hd.parent_before (pre.map pk) (pk r) (post.map pk) (by rw [e]; simp) with h | ⟨k, hk, h⟩
    · exact Or.inl (htop r hr h)
    · obtain ⟨a, ha, rfl⟩ := List.mem_map.1 hk
      exact Or.inr ⟨a, ha, hbelow r hr a (by rw [e]; simp [ha]) h⟩
  have hcase : ∀ x ∈ rs, pk x ∈ cs ∨ ∃ a ∈ rs, pk x ∈ F (some (pk a)) := by
    intro x hx
    obtain ⟨pre, post, e⟩ := List.append_of_mem hx
    rcases hd.parent_before (pre.map pk) (pk x) (post.map pk) (by rw [e]; simp) with h | ⟨k, hk, h⟩
    · exact Or.inl h
    · obtain ⟨a, ha, rfl⟩ := List.mem_map.1 hk
      exact Or.inr ⟨a, by rw [e]; simp [ha], h⟩
  refine dumps_of_lists hinj (List.Nodup.of_map _ hnd) hord ?_ ?_ hv
  · intro a ha
    have h1 : ∀ x ∈ rs, placedBelow key place a x = decide (pk x ∈ F (some (pk a))) := by
      intro x hx
      rcases hcase x hx with h | ⟨b, hb, h⟩
      · have : pk x ∉ F (some (pk a)) := hcs _ (List.mem_map_of_mem ha) _ h
        simp [placedBelow, htop x hx h, this]
      · rw [placedBelow, hbelow x hx b hb h]
        show (key a == key b) = _
        by_cases hab : a = b
        · subst hab; simp [h]
        · have h2 : pk x ∉ F (some (pk a)) := fun h' => hab (hpk a ha b hb (huniq _ _ _ h' h))
          have h3 : key a ≠ key b := fun e => hab (hinj a ha b hb e)
          simp [h2, h3]
    rw [List.filter_congr h1]
    conv_rhs => rw [← (hd.filter_kids hnd huniq hcs (pk a)).1 (List.mem_map_of_mem ha), List.filter_map]
    rfl
  · have h1 : ∀ x ∈ rs, placedTop place x = decide (pk x ∈ cs) := by
      intro x hx
      rcases hcase x hx with h | ⟨b, hb, h⟩
      · simp [placedTop, htop x hx h, h]
      · have : pk x ∉ cs := fun h' => hcs _ (List.mem_map_of_mem hb) _ h' h
        rw [placedTop, hbelow x hx b hb h]
        simp [this]
    rw [List.filter_congr h1]
    conv_rhs => rw [← hd.filter_top hnd, List.filter_map]
    rfl

end Verif
