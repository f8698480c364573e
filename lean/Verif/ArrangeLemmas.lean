/-
Several nodes moved to the end of a group of siblings, one after the other.
-/
import Verif.SpecArrange
import Verif.SpecMoveLoop
import Verif.SpecDeleteLoop
import Verif.PageLemmas
import Verif.DFS

namespace Verif
namespace Forest

variable {F G : Forest} {ids : List Nat}

/-- the nodes `xs` are the last children of `d`, in this order -/
def gather (F : Forest) (d : Option Nat) (xs : List Nat) : Forest :=
  fun q => if q = d then (F q).filter (fun k => decide (k ∉ xs)) ++ xs else (F q).filter (fun k => decide (k ∉ xs))

theorem gather_nil (d : Option Nat) : F.gather d [] = F := by
  funext q
  unfold gather
  simp

theorem move_last (x : Nat) (d : Option Nat) : F.move x d .last = F.gather d [x] := by
  funext q
  unfold move put remove gather Slot.ins
  simp

theorem gather_cons {x : Nat} {xs : List Nat} (hx : x ∉ xs) (d : Option Nat) : (F.gather d [x]).gather d xs = F.gather d (x :: xs) := by
  funext q
  have e : ((F q).filter (fun k => decide (k ∉ [x]))).filter (fun k => decide (k ∉ xs)) = (F q).filter (fun k => decide (k ∉ x :: xs)) := by
    rw [List.filter_filter]
    refine List.filter_congr (fun k _ => ?_)
    rw [Bool.eq_iff_iff]
    simp
    tauto
  unfold gather
  by_cases hq : q = d
  · rw [if_pos hq, if_pos hq, if_pos hq, List.filter_append, e, List.append_assoc]
    congr 1
    simp [hx]
  · rw [if_neg hq, if_neg hq, if_neg hq, e]

theorem mem_gather {d q : Option Nat} {xs : List Nat} {k : Nat} : k ∈ F.gather d xs q ↔ (k ∈ F q ∧ k ∉ xs) ∨ (q = d ∧ k ∈ xs) := by
  unfold gather
  by_cases hq : q = d
  · rw [if_pos hq]; simp [hq]
  · rw [if_neg hq]; simp [hq]

/-- the moves to the end -/
theorem movedAll_gather {pos : Pos} (hpos : pos = .lastSibling ∨ pos = .lastChild) {t : Nat} {xs : List Nat} (h : MovedAll pos t xs F G) :
    ∀ {p : Option Nat}, t ∈ F p → (∀ p q, t ∈ F p → t ∈ F q → p = q) → xs.Nodup → G = F.gather (pos.dest p t) xs := by
  induction h with
  | nil F => intro p _ _ _; exact (gather_nil _).symm
  | @cons x xs F G p hp hr _ ih =>
    intro p' hp' hone hnd
    obtain rfl := hone _ _ hp hp'
    have hnd := List.nodup_cons.1 hnd
    have e : F.moveAsked x p t pos = F.gather (pos.dest p t) [x] := by
      rcases hpos with rfl | rfl
      · exact move_last x p
      · exact move_last x (some t)
    rw [e] at ih
    rw [← gather_cons hnd.1]
    rcases hpos with rfl | rfl
    · refine ih (p := p) ?_ ?_ hnd.2
      · rw [mem_gather]
        by_cases ht : t = x
        · exact Or.inr ⟨rfl, by simp [ht]⟩
        · exact Or.inl ⟨hp, by simpa using ht⟩
      · intro q q' h1 h2
        rw [mem_gather] at h1 h2
        by_cases ht : t = x
        · rcases h1 with ⟨_, h1⟩ | ⟨h1, _⟩
          · exact absurd (by simp [ht]) h1
          · rcases h2 with ⟨_, h2⟩ | ⟨h2, _⟩
            · exact absurd (by simp [ht]) h2
            · rw [h1, h2]
        · rcases h1 with ⟨h1, _⟩ | ⟨_, h1⟩
          · rcases h2 with ⟨h2, _⟩ | ⟨_, h2⟩
            · exact hone _ _ h1 h2
            · exact absurd (by simpa using h2) ht
          · exact absurd (by simpa using h1) ht
    · -- the parent of the target plays no part
      by_cases ht : t = x
      · exact absurd (Or.inr ⟨rfl, ht⟩) hr
      · refine ih (p := p) ?_ ?_ hnd.2
        · exact mem_gather.2 (Or.inl ⟨hp, by simpa using ht⟩)
        · intro q q' h1 h2
          rw [mem_gather] at h1 h2
          rcases h1 with ⟨h1, _⟩ | ⟨_, h1⟩
          · rcases h2 with ⟨h2, _⟩ | ⟨_, h2⟩
            · exact hone _ _ h1 h2
            · exact absurd (by simpa using h2) ht
          · exact absurd (by simpa using h1) ht

theorem DFS.kids_nodup {cs l : List Nat} (h : F.DFS cs l) : l.Nodup → cs.Nodup ∧ ∀ x ∈ l, (F (some x)).Nodup := by
  induction h with
  | nil => intro _; exact ⟨List.nodup_nil, fun x hx => absurd hx (List.not_mem_nil)⟩
  | @cons c cs l₁ l₂ h1 h2 ih1 ih2 =>
    intro hn
    obtain ⟨hc, hn⟩ := List.nodup_cons.1 hn
    rw [List.nodup_append] at hn
    obtain ⟨a1, a2⟩ := ih1 hn.1
    obtain ⟨b1, b2⟩ := ih2 hn.2.1
    refine ⟨List.nodup_cons.2 ⟨fun hm => hc (List.mem_append_right _ ((h2.mem c).2 ⟨c, hm, Or.inl rfl⟩)), b1⟩, fun x hx => ?_⟩
    rcases List.mem_cons.1 hx with rfl | hx
    · exact a1
    · rcases List.mem_append.1 hx with hx | hx
      · exact a2 x hx
      · exact b2 x hx

theorem IsForestOn.kids_nodup (h : F.IsForestOn ids) (p : Option Nat) : (F p).Nodup := by
  obtain ⟨l, hd, hn, hp⟩ := h.listing
  obtain ⟨h1, h2⟩ := hd.kids_nodup hn
  cases p with
  | none => exact h1
  | some q =>
    by_cases hq : q ∈ ids
    · exact h2 q (hp.mem_iff.2 hq)
    · rw [h.outside q hq]; exact List.nodup_nil

theorem DFS.irrefl {cs l : List Nat} (h : F.DFS cs l) : l.Nodup → ∀ x ∈ l, ¬ F.Desc x x := by
  induction h with
  | nil => intro _ x hx; cases hx
  | @cons c cs l₁ l₂ h1 h2 ih1 ih2 =>
    intro hn x hx
    obtain ⟨hc, hn⟩ := List.nodup_cons.1 hn
    rw [List.nodup_append] at hn
    rcases List.mem_cons.1 hx with rfl | hx
    · intro hd
      refine hc (List.mem_append_left _ ((h1.mem x).2 ?_))
      obtain ⟨m, hm, h'⟩ : ∃ m, m ∈ F (some x) ∧ (x = m ∨ F.Desc m x) := by
        have : ∀ {d}, F.Desc x d → ∃ m, m ∈ F (some x) ∧ (d = m ∨ F.Desc m d) := by
          intro d hd
          induction hd with
          | child h => exact ⟨_, h, Or.inl rfl⟩
          | step _ h ih =>
            obtain ⟨m, hm, h'⟩ := ih
            refine ⟨m, hm, Or.inr ?_⟩
            rcases h' with rfl | h'
            · exact .child h
            · exact .step h' h
        exact this hd
      exact ⟨m, hm, h'⟩
    · rcases List.mem_append.1 hx with hx | hx
      · exact ih1 hn.1 x hx
      · exact ih2 hn.2.1 x hx

theorem IsForestOn.irrefl (h : F.IsForestOn ids) (a : Nat) : ¬ F.Desc a a := by
  intro hd
  obtain ⟨l, hl, hn, hp⟩ := h.listing
  have : a ∈ ids := by
    cases hd with
    | child h' => exact h.good.sub _ _ h'
    | step _ h' => exact h.good.sub _ _ h'
  exact hl.irrefl hn a (hp.mem_iff.2 this) hd

/-- siblings put at the end: nothing else changes -/
theorem gather_sibs (hF : F.IsForestOn ids) {d : Option Nat} {ws : List Nat} (hw : ∀ x ∈ ws, x ∈ F d) : F.gather d ws = F.withKids d (toEnd (F d) ws) := by
  funext q
  unfold gather withKids toEnd
  by_cases hq : q = d
  · rw [if_pos hq, if_pos hq, hq]
  · rw [if_neg hq, if_neg hq, List.filter_eq_self]
    intro k hk
    rw [decide_eq_true_eq]
    exact fun hm => hq (hF.good.one _ _ _ hk (hw k hm))

/-- A loop that puts siblings at the end. -/
theorem LoopOut.arranged {pos : Pos} (hpos : pos = .lastSibling ∨ pos = .lastChild) (hF : F.IsForestOn ids) {ids' : List Nat} (hG : G.IsForestOn ids') {t : Nat} {p : Option Nat}
    (ht : t ∈ F p) {ws : List Nat} (hnd : ws.Nodup) (hw : ∀ x ∈ ws, x ∈ F (pos.dest p t)) {err : Option Err} {Why : Nat → Err → Prop} (h : LoopOut pos t ws F G err Why) :
    Arranged F G (pos.dest p t) ws err (fun e => ∃ x ∈ ws, Why x e) := by
  obtain ⟨done, rest, e, hm, hend⟩ := h
  subst e
  have hg := movedAll_gather hpos hm ht (fun p q h1 h2 => hF.good.one _ _ _ h1 h2) (List.nodup_append.1 hnd).1
  have hgd := hg.trans (gather_sibs hF (fun x hx => hw x (List.mem_append_left _ hx)))
  refine ⟨done, rest, rfl, hgd, ?_⟩
  cases rest with
  | nil => rw [if_pos rfl]; exact hend
  | cons x rest =>
    rw [if_neg (by simp)]
    obtain ⟨e, he, h1 | h1⟩ := hend
    · exfalso
      have hxd : x ∉ done := fun hx => (List.nodup_append.1 hnd).2.2 x hx x (List.mem_cons_self ..) rfl
      have hx : x ∈ G (pos.dest p t) := by
        rw [hg, mem_gather]
        exact Or.inl ⟨hw x (by simp), hxd⟩
      rcases hpos with rfl | rfl
      · have hxp : x ∈ F p := hw x (by simp)
        have ht' : t ∈ G p := by
          rw [hg, mem_gather]
          by_cases htd : t ∈ done
          · exact Or.inr ⟨rfl, htd⟩
          · exact Or.inl ⟨ht, htd⟩
        rcases h1.2 with h2 | ⟨h2, _⟩
        · exact sib_not_desc hG.good.one hG.irrefl hx ht' h2
        · cases h2
      · have hd : G.Desc t x := .child hx
        rcases h1.2 with h2 | ⟨_, h2⟩
        · exact hG.irrefl _ (Desc.trans h2 hd)
        · rw [← h2] at hd
          exact hG.irrefl _ hd
    · exact ⟨e, he, x, by simp, h1⟩

/-- The children of `a` go below `b`, which is not `a` and not below it. -/
theorem LoopOut.handed (hF : F.IsForestOn ids) {a b : Nat} {p : Option Nat} (hb : b ∈ F p) (hab : a ≠ b) (hd : ¬ F.Desc a b) {err : Option Err} {Why : Nat → Err → Prop}
    (h : LoopOut .lastChild b (F (some a)) F G err Why) :
    ∃ done rest, F (some a) = done ++ rest ∧ G = F.handed a b done ∧ if rest = [] then err = none else ∃ e x, err = some e ∧ Why x e := by
  obtain ⟨done, rest, e, hm, hend⟩ := h
  have hnd := hF.kids_nodup (some a)
  rw [e] at hnd
  have hg := movedAll_gather (Or.inr rfl) hm hb (fun p q h1 h2 => hF.good.one _ _ _ h1 h2) (List.nodup_append.1 hnd).1
  have hin : ∀ x ∈ done, x ∈ F (some a) := fun x hx => by rw [e]; exact List.mem_append_left _ hx
  have hfix : ∀ q, q ≠ some a → (F q).filter (fun k => decide (k ∉ done)) = F q := by
    intro q hq
    rw [List.filter_eq_self]
    intro k hk
    rw [decide_eq_true_eq]
    exact fun hm => hq (hF.good.one _ _ _ hk (hin k hm))
  have hgd : G = F.handed a b done := by
    rw [hg]
    funext q
    unfold gather Forest.handed
    by_cases hqa : q = some a
    · subst hqa
      rw [if_neg (by simpa [Pos.dest, Pos.isChild] using hab), if_pos rfl]
    · rw [if_neg hqa, hfix q hqa]
      by_cases hqb : q = some b
      · subst hqb
        rw [if_pos rfl, if_pos (by simp [Pos.dest, Pos.isChild])]
      · rw [if_neg hqb, if_neg (by simpa [Pos.dest, Pos.isChild] using hqb)]
  refine ⟨done, rest, e, hgd, ?_⟩
  cases rest with
  | nil => rw [if_pos rfl]; exact hend
  | cons x rest =>
    rw [if_neg (by simp)]
    obtain ⟨err', he, h1 | h1⟩ := hend
    · exfalso
      have hxa : x ∈ F (some a) := by rw [e]; simp
      rcases h1.2 with h2 | ⟨_, h2⟩
      · have key : ∀ {y}, G.Desc x y → F.Desc a y := by
          intro y hy
          have hsub : ∀ {m y}, F.Desc a m → y ∈ G (some m) → F.Desc a y := by
            intro m y hm' hy
            rw [hgd] at hy
            unfold Forest.handed at hy
            split at hy
            · rename_i e'
              cases e'
              exact .child (List.mem_filter.1 hy).1
            · split at hy
              · rename_i e'
                cases e'
                exact absurd hm' hd
              · exact .step hm' hy
          induction hy with
          | child h => exact hsub (.child hxa) h
          | step _ h ih => exact hsub ih h
        exact hd (key h2)
      · rw [← h2] at hxa
        exact hd (.child hxa)
    · exact ⟨err', x, he, h1⟩

/-- when the children of `a` are below `b`, only `a` goes -/
theorem merged_prune (hF : F.IsForestOn ids) {a b : Nat} (hab : a ≠ b) {D : Nat → Bool} (ha : a ∈ ids)
    (hD : (F.handed a b (F (some a))).Goes ids (fun k => k == a) D) :
    (F.handed a b (F (some a))).prune D = F.merged a b ∧ ∀ k, D k = (k == a) := by
  have hnil : F.handed a b (F (some a)) (some a) = [] := by
    unfold Forest.handed
    rw [if_pos rfl, List.filter_eq_nil_iff]
    intro k hk
    simpa using hk
  have hDa : ∀ k, D k = (k == a) := by
    intro k
    rw [Bool.eq_iff_iff, hD k]
    constructor
    · rintro ⟨_, h | ⟨q, hq, h⟩⟩
      · exact h
      · exfalso
        rw [beq_iff_eq] at hq
        subst hq
        have : ∀ {k}, ¬ (F.handed q b (F (some q))).Desc q k := by
          intro k h
          induction h with
          | child h => rw [hnil] at h; cases h
          | step _ _ ih => exact ih
        exact this h
    · intro h
      refine ⟨by rw [beq_iff_eq] at h; rw [h]; exact ha, Or.inl h⟩
  refine ⟨?_, hDa⟩
  have haa : a ∉ F (some a) := fun h => hF.irrefl a (.child h)
  have hfil : ∀ l : List Nat, l.filter (fun y => !D y) = l.filter (fun k => decide (k ≠ a)) := by
    intro l
    refine List.filter_congr (fun k _ => ?_)
    rw [hDa, Bool.eq_iff_iff]
    simp
  funext q
  unfold prune
  cases q with
  | none =>
    dsimp only
    rw [hfil]
    unfold Forest.handed Forest.merged
    rw [if_neg (by simp), if_neg (by simp), if_neg (by simp), if_neg (by simp)]
  | some q =>
    dsimp only
    by_cases hq : q = a
    · subst hq
      rw [if_pos (by rw [hDa]; simp)]
      unfold Forest.merged
      rw [if_pos rfl]
    · rw [if_neg (by rw [hDa]; simpa using hq), hfil]
      have hqa : ¬ (some q = some a) := by simpa using hq
      unfold Forest.handed Forest.merged
      simp only [if_neg hqa]
      by_cases hb : q = b
      · subst hb
        rw [if_pos rfl, if_pos rfl, List.filter_append]
        congr 1
        rw [List.filter_eq_self]
        intro k hk
        rw [decide_eq_true_eq]
        exact fun e => haa (e ▸ hk)
      · have hqb : ¬ (some q = some b) := by simpa using hb
        simp only [if_neg hqb]

end Forest
end Verif
