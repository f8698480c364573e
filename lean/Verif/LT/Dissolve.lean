/-
LT: the children of a node moved right behind it, the last one first, with objects fetched before.
-/
import Verif.Props.MoveLoop
import Verif.LT.Dump
import Verif.DissolveLemmas

namespace Verif

/-- The children `gone` have left `x` and stand behind it: the first of them right behind it, the others and the siblings that were there in some order. -/
structure Forest.Loose (F : Forest) (x : Nat) (p : Option Nat) (kept gone : List Nat) (G : Forest) : Prop where
  others : ∀ q, q ≠ p → q ≠ some x → G q = F q
  kids : G (some x) = kept
  row : ∃ l r r', F p = l ++ x :: r ∧ G p = l ++ x :: (gone.head?.toList ++ r') ∧ r'.Perm (gone.tail ++ r) ∧ (gone = [] → r' = r)

namespace Forest

variable {F G H : Forest} {x : Nat} {p : Option Nat}

theorem Loose.start (hx : x ∈ F p) : F.Loose x p (F (some x)) [] F := by
  obtain ⟨l, r, e⟩ := List.append_of_mem hx
  exact ⟨fun _ _ _ => rfl, rfl, l, r, r, e, e, .refl _, fun _ => rfl⟩

theorem Loose.step {kept gone : List Nat} {c : Nat} (h : F.Loose x p (kept ++ [c]) gone G) (hp : p ≠ some x) (hG : G.OwnKids x) (hx : x ∈ G p)
    (hn : (G p).Nodup) (hu : (G.moveAsked c p x .right).UpToRight H p c) : F.Loose x p kept (c :: gone) H := by
  obtain ⟨l, r, r', e1, e2, hr, _⟩ := h.row
  rw [move_released hG hx h.kids] at hu
  obtain ⟨h1, l1, s, s', e3, e4, hs⟩ := hu
  have hcx : x ≠ c := fun e => hG.irrefl (by have h' := h.kids; rw [h', e]; simp)
  have hflat : ∀ q, q ≠ some x → x ∉ G q → G.released x kept [c] q = G q := by
    intro q hq hxq
    unfold released
    rw [if_neg hq]
    exact flatMap_same (fun k hk => if_neg (fun e' : k = x => hxq (e' ▸ hk)))
  have hrow : G.released x kept [c] p = l ++ x :: c :: (gone.head?.toList ++ r') := by
    unfold released
    rw [if_neg hp, e2, List.flatMap_append, List.flatMap_cons, if_pos rfl]
    rw [e2, List.nodup_append] at hn
    obtain ⟨_, hn2, hn3⟩ := hn
    rw [flatMap_same (fun k hk => if_neg (fun e' : k = x => hn3 k hk x (List.mem_cons_self ..) e')),
      flatMap_same (fun k hk => if_neg (fun e' : k = x => (List.nodup_cons.1 hn2).1 (e' ▸ hk)))]
    rfl
  have hcG : c ∉ G p := hG.own p hp c (by rw [h.kids]; simp)
  have hsplit : l1 = l ++ [x] ∧ s = gone.head?.toList ++ r' := by
    rw [hrow] at e3
    have e5 : (l ++ [x]) ++ c :: (gone.head?.toList ++ r') = l1 ++ c :: s := by rw [← e3]; simp
    rw [e2] at hcG
    have hcl : c ∉ l ++ [x] := fun hc => hcG (by
      rw [List.mem_append] at hc ⊢
      exact hc.imp id (fun h => by simp only [List.mem_singleton] at h; rw [h]; simp))
    have hcr : c ∉ gone.head?.toList ++ r' := fun hc => hcG (List.mem_append_right _ (List.mem_cons_of_mem _ hc))
    rcases List.append_eq_append_iff.1 e5 with ⟨a', ha, hb⟩ | ⟨a', ha, hb⟩
    · cases a' with
      | nil => simp at ha hb; exact ⟨ha, hb.symm⟩
      | cons b a' =>
        exfalso
        simp only [List.cons_append, List.cons.injEq] at hb
        exact hcr (by rw [hb.2]; simp)
    · cases a' with
      | nil => simp at ha hb; exact ⟨ha.symm, hb⟩
      | cons b a' =>
        exfalso
        simp only [List.cons_append, List.cons.injEq] at hb
        exact hcl (by rw [ha]; simp [hb.1])
  refine ⟨fun q hq hq' => ?_, ?_, l, r, s', e1, ?_, ?_, by intro h; cases h⟩
  · rw [h1 q hq, hflat q hq' (fun hxq => hq (hG.one _ _ hxq hx)), h.others q hq hq']
  · rw [h1 _ (fun e => hp e.symm)]
    unfold released
    rw [if_pos rfl]
  · rw [e4, hsplit.1]
    simp
  · rw [hsplit.2] at hs
    refine hs.trans ?_
    show (gone.head?.toList ++ r').Perm (gone ++ r)
    cases gone with
    | nil => exact hr
    | cons g gone => exact List.Perm.cons g hr

/-- when `x` itself is gone, too -/
theorem Loose.dissolved {ids : List Nat} (hF : F.IsForestOn ids) {c : Nat} {cs : List Nat} (hx : x ∈ F p) (hc : F (some x) = c :: cs) (h : F.Loose x p [] (c :: cs) G)
    {D : Nat → Bool} (hD : ∀ k, D k = (k == x)) : (F.dissolved x).UpToRight (G.prune D) p c := by
  have hp : p ≠ some x := fun e' => hF.irrefl x (.child (e' ▸ hx))
  have hone : ∀ q, x ∈ F q → q = p := fun q hq => hF.good.one _ _ _ hq hx
  have hfil : ∀ l : List Nat, x ∉ l → l.filter (fun y => !D y) = l := by
    intro l hl
    rw [List.filter_eq_self]
    intro k hk
    rw [hD]
    simp only [Bool.not_eq_eq_eq_not, Bool.not_true, beq_eq_false_iff_ne, ne_eq]
    exact fun e => hl (e ▸ hk)
  have hpr : ∀ q, q ≠ some x → G.prune D q = (G q).filter (fun y => !D y) := by
    intro q hq
    cases q with
    | none => rfl
    | some q =>
      unfold prune
      dsimp only
      rw [if_neg (by rw [hD]; simpa using hq)]
  obtain ⟨l, r, r', e1, e2, hr, _⟩ := h.row
  have hn := hF.kids_nodup p
  rw [e1, List.nodup_append] at hn
  obtain ⟨_, hn2, hn3⟩ := hn
  have hxl : x ∉ l := fun hk => hn3 x hk x (List.mem_cons_self ..) rfl
  have hxr : x ∉ r := (List.nodup_cons.1 hn2).1
  have hxk : x ∉ c :: cs := fun hk => hF.irrefl x (.child (hc ▸ hk))
  have hsame : ∀ l : List Nat, x ∉ l → l.flatMap (fun k => if k = x then F (some x) else [k]) = l :=
    fun l hl => flatMap_same (fun k hk => if_neg (fun e' : k = x => hl (e' ▸ hk)))
  refine ⟨fun q hq => ?_, l, cs ++ r, r', ?_, ?_, hr⟩
  · by_cases hqx : q = some x
    · rw [hqx]
      unfold prune Forest.dissolved
      dsimp only
      rw [if_pos (by rw [hD]; simp), if_pos rfl]
    · have hxq : x ∉ F q := fun hk => hq (hone q hk)
      rw [hpr q hqx, h.others q hq hqx, hfil _ hxq]
      unfold Forest.dissolved
      rw [if_neg hqx, hsame _ hxq]
  · unfold Forest.dissolved
    rw [if_neg hp, e1, List.flatMap_append, List.flatMap_cons, if_pos rfl, hsame l hxl, hsame r hxr, hc]
    simp
  · have hxr' : x ∉ r' := fun hk => by
      have := hr.mem_iff.1 hk
      rw [List.mem_append] at this
      rcases this with h3 | h3
      · exact hxk (List.mem_cons_of_mem _ h3)
      · exact hxr h3
    rw [hpr p hp, e2, List.filter_append, List.filter_cons_of_neg (by rw [hD]; simp), hfil l hxl]
    have : ((c :: cs).head?.toList ++ r').filter (fun y => !D y) = c :: r' :=
      hfil (c :: r') (fun hk => by
        rcases List.mem_cons.1 hk with h3 | h3
        · exact hxk (h3 ▸ List.mem_cons_self ..)
        · exact hxr' h3)
    rw [this]

end Forest

namespace LT

variable {cfg : Cfg} {db db' : DB}

/-- a move to the right of `t` keeps the branch of `t`, but for the moved one -/
theorem right_kept (ho : cfg.ordered = false) (h : Inv db.rows) {x t : Row} (hx : x ∈ db.rows) (ht : t ∈ db.rows) {posArg : Option Pos}
    (hpos : preparePosForMove false posArg = .ok .right) (hr : ¬ (PF db.rows).MoveRefused x.pk t.pk .right) {obj : Row} (e : move cfg db x t posArg = .ok (db', obj)) :
    ∀ r ∈ db.rows, ¬ x.path <+: r.path → t.path <+: r.path → r ∈ db'.rows := by
  obtain ⟨hplain, _⟩ := prepMove_arg hpos
  rw [← ho] at hpos
  obtain ⟨he, hin⟩ := move_eq h hx ht hpos hr
  obtain ⟨s, hpre, hn, hs, hA, hlast⟩ := moveNeighbours_plain (cfg := cfg) h.inv hx ht hplain
  obtain ⟨db1, l, moved, hg, hp, hw⟩ := getNewPath_spec h hn
  rw [he] at e
  simp only [hg, refreshed_eq h hp hx] at e
  have hcommit : (finishMove db1 (gRow moved (moveNeighbours cfg db x t .right).2 (moveNeighbours cfg db x t .right).1.1 x) ((moveNeighbours cfg db x t .right).2 ++ [l])) = (db', obj) := by
    unfold commit at e
    simp only at e
    split at e
    · exact Except.ok.inj e
    · cases e
  intro r hr hxr htr
  have hmem := moved_other h hp hx hr hxr ((moveNeighbours cfg db x t .right).2 ++ [l])
  rw [hcommit] at hmem
  have hkeep : gRow moved (moveNeighbours cfg db x t .right).2 (moveNeighbours cfg db x t .right).1.1 r = r := by
    cases hm : moved with
    | false => rfl
    | true =>
      obtain ⟨b, hb⟩ := hp.gap hm
      obtain ⟨hb1, hb2⟩ := hn.b b hb
      have hlt := hn.lt b t hb rfl
      unfold gRow shRow
      rw [if_pos rfl, sh_kept]
      intro l' u e'
      have htp := path_split h.inv ht
      have hpre' : (moveNeighbours cfg db x t .right).2 = t.path.dropLast := rfl
      rw [hpre'] at e' hb2
      have hl' : l' = lastLabel t.path := by
        obtain ⟨w, hw⟩ := htr
        rw [← hw, htp, List.append_assoc] at e'
        have := List.append_cancel_left (by rw [List.dropLast_append_of_ne_nil (by simp)] at e'; simpa using e' : t.path.dropLast ++ ([lastLabel t.path] ++ w) = t.path.dropLast ++ (l' :: u))
        simp only [List.cons_append, List.nil_append, List.cons.injEq] at this
        exact this.1.symm
      rw [hl', hb]
      exact (sib_lt h.inv ht hb1 hb2.symm).1 hlt
  rwa [hkeep] at hmem

/-- What holds before every move of a child of `t` to the right of `t`. -/
structure OutInv (db : DB) (nodes : List Row) (t : Row) : Prop where
  consistent : Consistent db
  stored : ∀ x ∈ nodes, x ∈ db.rows
  apart : nodes.Pairwise (fun a b => ¬ a.path <+: b.path)
  target : t ∈ db.rows
  inside : ∀ x ∈ nodes, Under t.path x.path

theorem OutInv.step (ho : cfg.ordered = false) {posArg : Option Pos} (hpos : preparePosForMove false posArg = .ok .right) {x t : Row} {xs : List Row}
    (h : OutInv db (x :: xs) t) :
    ∃ db' obj p, ¬ (forest db).MoveRefused x.pk t.pk .right ∧ moveObj cfg db x t posArg = .ok (db', obj, t) ∧ move cfg db x t posArg = .ok (db', obj) ∧
      OutInv db' xs t ∧ t.pk ∈ forest db p ∧ MovedNear db db' obj x ((forest db).moveAsked x.pk p t.pk .right) p := by
  have hx := h.stored x (List.mem_cons_self ..)
  have hi := h.consistent.inv
  have hu := h.inside x (List.mem_cons_self ..)
  have hr : ¬ (forest db).MoveRefused x.pk t.pk .right := by
    rw [forest_eq hi.inv]
    rintro (h1 | ⟨h1, _⟩)
    · have := ((desc_iff (L := 1) hi.inv (by omega) hx h.target).1 h1).1.length_le
      have := hu.2
      omega
    · cases h1
  obtain ⟨p, hp, db', obj, e, hm, _⟩ := C36_move_partial ho h.consistent hx h.target hpos hr
  have hr' := hr
  rw [forest_eq hi.inv] at hr'
  have hkept := right_kept ho hi hx h.target hpos hr' e
  have hxt : x ≠ t := fun e => by rw [e] at hu; exact Nat.lt_irrefl _ hu.2
  have ht' : t ∈ db'.rows := hkept t h.target (fun hp => by have := hp.length_le; have := hu.2; omega) (List.prefix_refl _)
  obtain ⟨d2, o2, t2, e2, ht2, hk2⟩ := moveObj_target ho hi hx h.target hxt hpos (by simp) hr'
  have hsame := moveObj_move cfg db x t posArg
  rw [e, e2] at hsame
  have hd : d2 = db' ∧ o2 = obj := by
    have := Except.ok.inj hsame
    exact ⟨congrArg Prod.fst this, congrArg Prod.snd this⟩
  obtain ⟨rfl, rfl⟩ := hd
  have : t2 = t := hm.consistent.inv.inv.pk_inj ht2 ht' hk2
  subst this
  exact ⟨d2, o2, p, hr, e2, e, ⟨hm.consistent, fun y hy => hkept y (h.stored y (List.mem_cons_of_mem _ hy)) ((List.pairwise_cons.1 h.apart).1 y hy) (h.inside y (List.mem_cons_of_mem _ hy)).1,
    (List.pairwise_cons.1 h.apart).2, ht', fun y hy => h.inside y (List.mem_cons_of_mem _ hy)⟩, hp, hm⟩

/-- what the loop over the children does -/
theorem out_loop (ho : cfg.ordered = false) {posArg : Option Pos} (hpos : preparePosForMove false posArg = .ok .right) {F : Forest} {t : Row} {p : Option Nat} :
    ∀ {xs : List Row} {gone : List Nat} {db : DB}, OutInv db xs t → t.pk ∈ forest db p → F.Loose t.pk p (xs.map Row.pk).reverse gone (forest db) →
      moveLoop cfg posArg xs t db = moveFresh cfg posArg t.pk (xs.map Row.pk) db ∧ Consistent (moveLoop cfg posArg xs t db).1 ∧
      data (moveLoop cfg posArg xs t db).1.rows = data db.rows ∧ (moveLoop cfg posArg xs t db).2 = none ∧
      F.Loose t.pk p [] ((xs.map Row.pk).reverse ++ gone) (forest (moveLoop cfg posArg xs t db).1) := by
  intro xs
  induction xs with
  | nil => intro gone db h _ hL; exact ⟨rfl, h.consistent, rfl, rfl, hL⟩
  | cons x xs ih =>
    intro gone db h hp hL
    obtain ⟨db', obj, p', hr, e, e0, hi, hp', hm⟩ := h.step ho hpos
    have hF := isForestOn h.consistent
    have hpp : p' = p := hF.good.one _ _ _ hp' hp
    subst hpp
    have hne : p' ≠ some t.pk := fun e' => hF.irrefl t.pk (.child (e' ▸ hp))
    rw [List.map_cons, List.reverse_cons] at hL ⊢
    have hL' := hL.step hne (hF.ownKids _) hp (hF.kids_nodup _) hm.near
    have hp1 : t.pk ∈ forest db' p' := by
      rw [mem_forest hm.consistent.inv.inv hi.target]
      obtain ⟨l, r, r', h1, h2, _⟩ := hL'.row
      rw [← mem_forest hm.consistent.inv.inv hi.target, h2]
      simp
    obtain ⟨g1, g2, g3, g4, g5⟩ := ih hi hp1 hL'
    have hloop : moveLoop cfg posArg (x :: xs) t db = moveLoop cfg posArg xs t db' := by
      conv => lhs; unfold moveLoop
      rw [e]
    have e1 : db.get? x.pk = some x := (get?_eq_some h.consistent.inv.inv).2 ⟨h.stored x (List.mem_cons_self ..), rfl⟩
    have e2 : db.get? t.pk = some t := (get?_eq_some h.consistent.inv.inv).2 ⟨h.target, rfl⟩
    rw [hloop]
    refine ⟨?_, g2, g3.trans hm.data, g4, by rw [List.append_assoc]; exact g5⟩
    rw [g1]
    conv => rhs; unfold moveFresh
    rw [e1, e2]
    simp only [e0]

end LT

end Verif
