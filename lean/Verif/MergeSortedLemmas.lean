/-
C93: the history that hands the children of a node over.
-/
import Verif.SpecMergeSorted
import Verif.UnsortedLemmas
import Verif.ArrangeLemmas
import Verif.TreeLemmas

namespace Verif

variable {F : Forest} {ids : List Nat}

theorem gather_snoc {d : Option Nat} {xs : List Nat} {c : Nat} (hc : c ∉ xs) : (F.gather d xs).move c d .last = F.gather d (xs ++ [c]) := by
  rw [Forest.move_last]
  have hf : ∀ l : List Nat, (l.filter (fun k => decide (k ∉ xs))).filter (fun k => decide (k ∉ [c])) = l.filter (fun k => decide (k ∉ xs ++ [c])) := by
    intro l
    rw [List.filter_filter]
    refine List.filter_congr (fun k _ => ?_)
    rw [Bool.eq_iff_iff]
    simp [and_comm]
  have hx : xs.filter (fun k => decide (k ∉ [c])) = xs := by
    rw [List.filter_eq_self]
    intro k hk
    simp only [List.mem_singleton, decide_eq_true_eq]
    rintro rfl
    exact hc hk
  funext q
  unfold Forest.gather
  by_cases hq : q = d
  · simp only [if_pos hq, List.filter_append, hf, hx, List.append_assoc]
  · simp only [if_neg hq, hf]

/-- the children of `a` can be moved relative to `t`, below `d` -/
structure HandsOver (F : Forest) (ids : List Nat) (a t : Nat) (pos : Pos) (d : Option Nat) : Prop where
  forest : F.IsForestOn ids
  node : a ∈ ids
  target : t ∈ ids
  dest : ∃ p, t ∈ F p ∧ pos.dest p t = d
  apart : ¬ F.Desc a t
  other : ∀ b, d = some b → b ≠ a ∧ ¬ F.Desc a b

namespace HandsOver

variable {a t : Nat} {pos : Pos} {d : Option Nat}

theorem below (h : HandsOver F ids a t pos d) {done : List Nat} (hdone : ∀ x ∈ done, x ∈ F (some a)) {c y : Nat} (hc : c ∈ F (some a))
    (hy : (F.gather d done).Desc c y) : F.Desc a y := by
  have hsub : ∀ {m y}, F.Desc a m → y ∈ F.gather d done (some m) → F.Desc a y := by
    intro m y hm hy
    rcases Forest.mem_gather.1 hy with ⟨hy, _⟩ | ⟨hd, _⟩
    · exact .step hm hy
    · exact absurd hm (h.other m hd.symm).2
  induction hy with
  | child hm => exact hsub (.child hc) hm
  | step _ hm ih => exact hsub ih hm

theorem moves (h : HandsOver F ids a t pos d) (hpos : pos = .lastSibling ∨ pos = .lastChild) {done cs : List Nat} (e : F (some a) = done ++ cs) :
    Tree.run ⟨ids, F.gather d done⟩ (cs.map (fun c => .move c t (some pos))) = ⟨ids, F.gather d (F (some a))⟩ := by
  classical
  induction cs generalizing done with
  | nil => rw [e, List.append_nil]; rfl
  | cons c cs ih =>
    have hca : c ∈ F (some a) := by rw [e]; simp
    have hnd := h.forest.kids_nodup (some a)
    rw [e, List.nodup_append] at hnd
    have hcd : c ∉ done := fun hm => hnd.2.2 c hm c (by simp) rfl
    have hdone : ∀ x ∈ done, x ∈ F (some a) := fun x hx => by rw [e]; exact List.mem_append_left _ hx
    obtain ⟨p, hp, hd⟩ := h.dest
    have hprep : preparePosForMove false (some pos) = .ok pos := by rcases hpos with rfl | rfl <;> rfl
    have htd : ∀ xs : List Nat, (∀ x ∈ xs, x ∈ F (some a)) → t ∉ xs := fun xs hx hm => h.apart (.child (hx t hm))
    have hstep : Tree.step ⟨ids, F.gather d done⟩ (.move c t (some pos)) = ⟨ids, F.gather d (done ++ [c])⟩ := by
      have hpar : Tree.parent ⟨ids, F.gather d done⟩ t = p := by
        refine Tree.parent_eq (F := F.gather d done) (ids := ids) ?_ ?_ rfl (fun _ => Iff.rfl) (Forest.mem_gather.2 (Or.inl ⟨hp, htd done hdone⟩))
        · intro p q k h1 h2
          rcases Forest.mem_gather.1 h1 with ⟨g1, g1'⟩ | ⟨rfl, g1⟩ <;> rcases Forest.mem_gather.1 h2 with ⟨g2, g2'⟩ | ⟨e2, g2⟩
          · exact h.forest.good.one _ _ _ g1 g2
          · exact absurd g2 g1'
          · exact absurd g1 g2'
          · exact e2.symm
        · intro q k hk
          have hin : ∀ k, k ∈ F (some q) → q ∈ ids := by
            intro k hk
            by_contra hq
            rw [h.forest.outside q hq] at hk
            cases hk
          rcases Forest.mem_gather.1 hk with ⟨hk, _⟩ | ⟨e', _⟩
          · exact hin k hk
          · rw [← hd] at e'
            rcases hpos with rfl | rfl
            · exact hin t (by rw [e']; exact hp)
            · cases e'; exact h.target
      have hr : ¬ (F.gather d done).MoveRefused c t pos := by
        rintro (hr | ⟨_, rfl⟩)
        · exact h.apart (h.below hdone hca hr)
        · exact h.apart (.child hca)
      simp only [Tree.step, hprep, hpar, if_neg hr]
      rw [if_neg (by simp [h.target, h.forest.good.sub _ _ hca])]
      congr 1
      rw [← gather_snoc hcd, ← hd]
      rcases hpos with rfl | rfl <;> rfl
    show Tree.run (Tree.step _ _) _ = _
    rw [hstep]
    exact ih (by rw [e]; simp)

/-- the whole history without `node_order_by` -/
theorem run (h : HandsOver F ids a t pos d) (hpos : pos = .lastSibling ∨ pos = .lastChild) :
    Tree.run ⟨ids, F⟩ (handOps (F (some a)) a t pos) = ⟨ids.filter (fun k => decide (k ≠ a)), F.handedOver a d⟩ ∧
    ∀ k, Tree.Doomed (F.gather d (F (some a))) [a].contains k ↔ k = a := by
  classical
  have hm := h.moves hpos (done := []) (cs := F (some a)) rfl
  rw [Forest.gather_nil] at hm
  have hda : d ≠ some a := fun e => (h.other a e).1 rfl
  have hnil : F.gather d (F (some a)) (some a) = [] := by
    unfold Forest.gather
    rw [if_neg (Ne.symm hda), List.filter_eq_nil_iff]
    intro k hk
    simpa using hk
  have hdesc : ∀ k, ¬ (F.gather d (F (some a))).Desc a k := by
    intro k hk
    induction hk with
    | child hk => rw [hnil] at hk; cases hk
    | step _ _ ih => exact ih
  have hdoom : ∀ k, Tree.Doomed (F.gather d (F (some a))) [a].contains k ↔ k = a := by
    intro k
    unfold Tree.Doomed
    simp [hdesc]
  have haa : a ∉ F (some a) := fun h' => h.forest.irrefl a (.child h')
  refine ⟨?_, hdoom⟩
  unfold Tree.run handOps at *
  rw [List.foldl_append, hm]
  simp only [List.foldl_cons, List.foldl_nil, Tree.step, hdoom]
  congr 1
  · exact List.filter_congr (fun k _ => by simp)
  · have hfil : ∀ l : List Nat, l.filter (fun y => !decide (y ∈ ids ∧ y = a)) = l.filter (fun k => decide (k ≠ a)) := by
      intro l
      refine List.filter_congr (fun k _ => ?_)
      rw [Bool.eq_iff_iff]
      simp only [Bool.not_eq_true', decide_eq_false_iff_not, decide_eq_true_eq, ne_eq]
      constructor
      · exact fun hk e => hk ⟨e ▸ h.node, e⟩
      · exact fun hk e => hk e.2
    have hfix : ∀ q, q ≠ some a → (F q).filter (fun k => decide (k ∉ F (some a))) = F q := by
      intro q hq
      rw [List.filter_eq_self]
      intro k hk
      rw [decide_eq_true_eq]
      exact fun hm => hq (h.forest.good.one _ _ _ hk hm)
    have hsame : (F (some a)).filter (fun k => decide (k ≠ a)) = F (some a) := by
      rw [List.filter_eq_self]
      intro k hk
      rw [decide_eq_true_eq]
      rintro rfl
      exact haa hk
    funext q
    have key : q ≠ some a → (F.gather d (F (some a)) q).filter (fun y => !decide (y ∈ ids ∧ y = a)) = F.handedOver a d q := by
      intro hq
      unfold Forest.gather Forest.handedOver
      rw [if_neg hq, hfil, hfix q hq]
      split
      · rw [List.filter_append, hsame]
      · rfl
    cases q with
    | none => exact key (by simp)
    | some q =>
      by_cases hq : q = a
      · subst hq
        unfold Forest.prune Forest.handedOver
        rw [if_pos rfl]
        simp [h.node]
      · unfold Forest.prune
        simp only [hq, and_false, decide_false, Bool.false_eq_true, if_false]
        rw [← key (by simpa using hq)]

end HandsOver

/-- a sorted tree and itself -/
theorem Twin.self {ob : List (Nat × Bool)} {D : List (Nat × Vals)} (hs : SortedData ob F D) (hF : F.IsForestOn (D.map Prod.fst))
    (hk : (D.map Prod.fst).Nodup) : Twin ob ⟨D, F⟩ ⟨D.map Prod.fst, F⟩ :=
  ⟨fun _ => Iff.rfl, hs.sorted.stably, hs.nonNull, hk, fun q a ha => hF.good.sub q a ha, fun q => hF.kids_nodup q, fun _ _ _ h1 h2 => hF.good.one _ _ _ h1 h2⟩

theorem run_moves_data {ob : List (Nat × Bool)} (s : STree) (cs : List Nat) (t : Nat) (pos : Pos) :
    (STree.run ob s (cs.map (fun c => .move c t (some pos)))).data = s.data := by
  induction cs generalizing s with
  | nil => rfl
  | cons c cs ih =>
    show (STree.run ob (STree.step ob s _) _).data = _
    rw [ih]
    simp only [STree.step]
    split
    · rfl
    · split
      · rfl
      · split <;> rfl

/-- the unsorted form of the two positions -/
def lastPos (pos : Pos) : Pos := if pos = .sortedChild then .lastChild else .lastSibling

theorem handOps_plain {pos : Pos} (hpos : pos = .sortedSibling ∨ pos = .sortedChild) (cs : List Nat) (a t : Nat) :
    (handOps cs a t pos).map plainOp = handOps cs a t (lastPos pos) := by
  unfold handOps
  rw [List.map_append, List.map_map]
  rcases hpos with rfl | rfl <;> rfl

/-- what handing over the children of `a` and deleting it gives in the sorted tree -/
theorem STree.run_handOps {ob : List (Nat × Bool)} {D : List (Nat × Vals)} (hs : SortedData ob F D) (hk : (D.map Prod.fst).Nodup) {a t : Nat} {pos : Pos}
    {d : Option Nat} (hpos : pos = .sortedSibling ∨ pos = .sortedChild) (h : HandsOver F (D.map Prod.fst) a t (lastPos pos) d) {s : STree}
    (e : s = STree.run ob ⟨D, F⟩ (handOps (F (some a)) a t pos)) :
    (F.handedOver a d).StablySorted ob (valsIn D) s.F ∧ s.data = D.filter (fun e => decide (e.1 ≠ a)) := by
  classical
  have hlast : lastPos pos = .lastSibling ∨ lastPos pos = .lastChild := by rcases hpos with rfl | rfl <;> simp [lastPos]
  have ht := Twin.self hs h.forest hk
  have hnn : ∀ (cs : List Nat), ∀ op ∈ cs.map (fun c => Op.move c t (some pos)), NoNulls ob op := by
    intro cs op hop
    obtain ⟨c, _, rfl⟩ := List.mem_map.1 hop
    trivial
  have h1 := ht.run (ops := (F (some a)).map (fun c => Op.move c t (some pos))) (hnn _)
  have hm := h.moves hlast (done := []) (cs := F (some a)) rfl
  rw [Forest.gather_nil] at hm
  have hpl : ((F (some a)).map (fun c => Op.move c t (some pos))).map plainOp = (F (some a)).map (fun c => .move c t (some (lastPos pos))) := by
    rw [List.map_map]
    rcases hpos with rfl | rfl <;> rfl
  rw [hpl, hm] at h1
  have h2 := h1.step (.delete [a]) trivial
  obtain ⟨hr, hdoom⟩ := h.run hlast
  have hs1 : s = STree.step ob (STree.run ob ⟨D, F⟩ ((F (some a)).map (fun c => Op.move c t (some pos)))) (.delete [a]) := by
    rw [e]
    unfold STree.run handOps
    rw [List.foldl_append]
    rfl
  have hdata : s.data = D.filter (fun e => decide (e.1 ≠ a)) := by
    rw [hs1]
    simp only [STree.step, run_moves_data]
    refine List.filter_congr (fun e _ => ?_)
    have := h1.doomed [a].contains e.1
    rw [hdoom] at this
    simp [this]
  have h3 : Tree.step ⟨D.map Prod.fst, F.gather d (F (some a))⟩ (plainOp (.delete [a])) = ⟨(D.map Prod.fst).filter (fun k => decide (k ≠ a)), F.handedOver a d⟩ := by
    rw [← hr]
    unfold Tree.run handOps
    rw [List.foldl_append]
    unfold Tree.run at hm
    rw [hm]
    rfl
  rw [h3, ← hs1] at h2
  refine ⟨?_, hdata⟩
  have ho := h2.order
  rw [hdata] at ho
  refine fun q => ⟨(ho q).1, (ho q).2.imp_of_mem ?_⟩
  have hv : ∀ k, k ∈ s.F q → valsIn (D.filter (fun e => decide (e.1 ≠ a))) k = valsIn D k := by
    intro k hk'
    have := h2.inside q k hk'
    rw [STree.ids, hdata] at this
    exact valsIn_filter hk this
  intro x y hx hy hp
  unfold Precedes at hp ⊢
  rwa [hv x hx, hv y hy] at hp

theorem Forest.IsForestOn.ids_nodup (h : F.IsForestOn ids) : ids.Nodup := by
  obtain ⟨l, _, hn, hp⟩ := h.listing
  exact hp.nodup_iff.1 hn

theorem Forest.IsForestOn.has_parent (h : F.IsForestOn ids) {k : Nat} (hk : k ∈ ids) : ∃ p, k ∈ F p := by
  obtain ⟨l, hd, _, hp⟩ := h.listing
  obtain ⟨c, hc, rfl | hd⟩ := (hd.mem k).1 (hp.mem_iff.2 hk)
  · exact ⟨none, hc⟩
  · cases hd with
    | child h => exact ⟨_, h⟩
    | step _ h => exact ⟨_, h⟩

/-- merging `a` into `b` -/
theorem handsOver_merge (h : F.IsForestOn ids) {a b : Nat} (ha : a ∈ ids) (hb : b ∈ ids) (hne : a ≠ b) (hd : ¬ F.Desc a b) :
    HandsOver F ids a b (lastPos .sortedChild) (some b) := by
  obtain ⟨p, hp⟩ := h.has_parent hb
  refine ⟨h, ha, hb, ⟨p, hp, rfl⟩, hd, ?_⟩
  rintro _ ⟨⟩
  exact ⟨hne.symm, hd⟩

/-- dissolving `a`, a child of `p` -/
theorem handsOver_dissolve (h : F.IsForestOn ids) {a : Nat} {p : Option Nat} (ha : a ∈ F p) : HandsOver F ids a a (lastPos .sortedSibling) p := by
  have hm := h.good.sub p a ha
  refine ⟨h, hm, hm, ⟨p, ha, rfl⟩, h.irrefl a, ?_⟩
  rintro b rfl
  exact ⟨fun e => h.irrefl a (.child (e ▸ ha)), fun hd => h.irrefl a (.step hd ha)⟩

theorem handOps_noNulls {ob : List (Nat × Bool)} (cs : List Nat) (a t : Nat) (pos : Pos) : ∀ op ∈ handOps cs a t pos, NoNulls ob op := by
  intro op hop
  rcases List.mem_append.1 hop with hop | hop
  · obtain ⟨c, _, rfl⟩ := List.mem_map.1 hop; trivial
  · rw [List.mem_singleton.1 hop]; trivial

end Verif
