/-
MP: the children of a node moved right behind it, the last one first, with objects fetched before.
-/
import Verif.Props.MoveLoop
import Verif.DissolveLemmas

namespace Verif.MP

variable {cfg : Cfg} {db db' : DB}

/-- what is in none of the shifted branches stays -/
theorem shiftLoop_apart : ∀ {l : List Row} {db : DB} {x : List Nat} {old : Option (List Nat)}, (∀ n ∈ l, ¬ n.path <+: x) → shiftLoop cfg l db (some x) = .ok (db', old) →
    old = some x ∧ ∀ r ∈ db.rows, (∀ n ∈ l, ¬ n.path <+: r.path) → r ∈ db'.rows := by
  intro l
  induction l with
  | nil =>
    intro db x old _ h
    unfold shiftLoop at h
    cases h
    exact ⟨rfl, fun r hr _ => hr⟩
  | cons n l ih =>
    intro db x old hl h
    unfold shiftLoop at h
    split at h
    · cases h
    · split at h
      · cases h
      · rename_i db1 e1
        have hb : ∀ inc, bump n.path inc x = x := by
          intro inc
          unfold bump
          rw [if_neg]
          rw [List.isPrefixOf_iff_prefix]
          exact hl n (List.mem_cons_self ..)
        rw [Option.map_some, hb] at h
        obtain ⟨h1, h2⟩ := ih (fun m hm => hl m (List.mem_cons_of_mem _ hm)) h
        exact ⟨h1, fun r hr hu => h2 r (setNewpath_kept e1 hr (hu n (List.mem_cons_self ..))) (fun m hm => hu m (List.mem_cons_of_mem _ hm))⟩

/-- a move of a node below `t` to the right of `t` keeps the rest of the branch of `t` -/
theorem reorder_right_kept (hok : cfg.Ok) (h : PInv cfg db.rows) {t : Row} (ht : t ∈ db.rows) {x : List Nat} (hx : Under t.path x)
    (hxr : ∃ q ∈ db.rows, q.path = x) {o : Option (List Nat)} {np : List Nat} (hr : reorder cfg db .right none t.depth t [] (some x) = .ok (db', o, np)) :
    ∀ r ∈ db.rows, ¬ x <+: r.path → t.path <+: r.path → r ∈ db'.rows := by
  by_cases hc : IsLastCase cfg db .right t
  · exact fun r hm hp _ => reorder_last_kept (Or.inl hc) hr r hm hp
  · rw [reorder_none hc] at hr
    split at hr
    · cases hr
    · rename_i n sibs es
      have hsib : ∀ s ∈ sibs, ∀ r : List Nat, t.path <+: r → ¬ s.path <+: r := by
        intro s hs r htr hsr
        obtain ⟨h1, h2⟩ := (mem_siblings h hok ht).1 (mem_placeSiblings es s hs)
        have hlt : t.path < s.path := by
          unfold placeSiblings at es
          split at es
          · cases es
          · simp only [Except.ok.injEq, Prod.mk.injEq] at es
            obtain ⟨_, rfl⟩ := es
            simpa using (List.mem_filter.1 hs).2
        have hlen : s.path.length = t.path.length := by
          have := congrArg List.length h2
          rw [pp_length, pp_length] at this
          have := (h.inv.len s h1).2
          have := (h.inv.len t ht).2
          have := hok.step
          have := depth_mul h ht
          have := depth_mul h h1
          omega
        have : s.path = t.path := by
          rw [List.prefix_iff_eq_take] at hsr htr
          rw [hsr, htr, hlen]
        rw [this] at hlt
        exact lt_irrefl _ hlt
      have hbase : basepath cfg t.path ((t.depth : Int) - 1) = pp cfg.steplen t.path := h.basepath hok ht
      unfold reorderRest at hr
      split at hr
      · cases hr
      · rename_i newpath en
        simp only at hr
        split at hr
        · cases hr
        · rename_i db1 temp et
          have hte : db1 = db ∧ temp = none := by
            unfold moveToTemp at et
            split at et
            · rename_i hcond
              exfalso
              obtain ⟨h1, h2, _⟩ := hcond
              unfold getPath at en
              split at en
              · cases en
              · rename_i key _
                rw [hbase, List.append_assoc] at en
                injection en with en
                have hstep := hok.step
                have hdm := depth_mul h ht
                have hd1 : 1 ≤ t.depth := by
                  by_contra hc
                  have h0 : t.depth = 0 := by omega
                  rw [h0] at hdm
                  omega
                have hb : basepath cfg newpath ((t.depth : Int) - 1) = pp cfg.steplen t.path := by
                  rw [basepath_pred _ hd1, ← en, Nat.sub_mul, hdm, Nat.one_mul, Nat.add_sub_cancel]
                  exact List.take_left ..
                obtain ⟨q, hq, rfl⟩ := hxr
                have hqd := (h.inv.len q hq).2
                have hqm := depth_mul h hq
                have hlen : q.path.length / cfg.steplen = q.depth := by
                  have hql : q.path.length = q.depth * cfg.steplen := by
                    rw [hqm, pp_length]
                    omega
                  rw [hql, Nat.mul_div_cancel _ hstep]
                rw [hb, hlen, h.basepath hok hq] at h2
                have := congrArg List.length h2
                rw [pp_length, pp_length] at this
                have := hx.2
                have := (h.inv.len t ht).2
                omega
            · cases et
              exact ⟨rfl, rfl⟩
          obtain ⟨rfl, rfl⟩ := hte
          split at hr
          · cases hr
          · rename_i moves em
            split at hr
            · cases hr
            · rename_i db2 old2 e2
              have hmv : ∀ m ∈ moves.reverse, m ∈ sibs := fun m hm => mem_collectShift em m (List.mem_reverse.1 hm)
              obtain ⟨rfl, h2⟩ := shiftLoop_apart (fun m hm => hsib m (hmv m hm) x hx.1) e2
              simp only [Option.getD_none] at hr
              split at hr
              · cases hr
              · rename_i e3
                cases hr
                exact fun r hm hp hu => setNewpath_kept e3 (h2 r hm (fun m hm' => hsib m (hmv m hm') _ hu)) hp

/-- **What such a move leaves alone**: the rest of the branch of the target. -/
theorem right_kept (hok : cfg.Ok) (h : Inv cfg db.rows) (ho : cfg.ordered = false) {x t : Row} (hx : x ∈ db.rows) (ht : t ∈ db.rows) {posArg : Option Pos}
    (hprep : preparePosForMove false posArg = .ok .right) (hu : Under t.path x.path) {res : MoveResult} (hm : move cfg db x t posArg = .ok res) :
    ∀ r ∈ db.rows, ¬ x.path <+: r.path → t.path <+: r.path → ∃ r' ∈ res.db.rows, Alike r r' := by
  unfold move at hm
  rw [ho, hprep] at hm
  simp only at hm
  have e : moveToChildVars cfg db x t .right = .ok ⟨t, t.depth, [], none, .right⟩ := rfl
  rw [e] at hm
  simp only at hm
  split at hm
  · cases hm
  · unfold moveSorted at hm
    simp only [reduceCtorEq, if_false] at hm
    intro r hr h1 h2
    refine moveTo_kept (Q := fun r => ¬ x.path <+: r.path ∧ t.path <+: r.path) ?_ hm r hr ⟨h1, h2⟩
    rintro db' o np e2 r hr ⟨h1, h2⟩
    exact reorder_right_kept hok h.toPInv ht hu ⟨x, hx, rfl⟩ e2 r hr h1 h2

/-- What holds before every move of a child of `t` to the right of `t`. -/
structure OutInv (cfg : Cfg) (db : DB) (nodes : List Row) (t t0 : Row) : Prop where
  inv : Inv cfg db.rows
  stored : ∀ x ∈ nodes, ∃ r ∈ db.rows, Alike x r
  apart : Apart nodes
  target : t0 ∈ db.rows
  near : Near t t0
  inside : ∀ x ∈ nodes, Under t0.path x.path

theorem OutInv.room (h : OutInv cfg db (x :: xs) t t0) (hok : cfg.Ok) {x0 : Row} (hx0 : x0 ∈ db.rows) (hxa : Alike x x0) :
    pp cfg.steplen x0.path ≠ destPath cfg .right t0 := by
  intro e
  have hi := h.inside x (List.mem_cons_self ..)
  rw [hxa.path] at hi
  have e' : pp cfg.steplen x0.path = pp cfg.steplen t0.path := e
  have := congrArg List.length e'
  rw [pp_length, pp_length] at this
  have h1 := (h.inv.inv.len x0 hx0).2
  have := hok.step
  have := hi.2
  have := depth_mul h.inv.toPInv hx0
  have := depth_mul h.inv.toPInv h.target
  have := (h.inv.inv.len t0 h.target).2
  omega

theorem OutInv.step (hok : cfg.Ok) (ho : cfg.ordered = false) {posArg : Option Pos} (hprep : preparePosForMove false posArg = .ok .right)
    {x t t0 : Row} {xs : List Row} (h : OutInv cfg db (x :: xs) t t0) :
    ∃ x0 ∈ db.rows, x0.pk = x.pk ∧ ((∃ e, move cfg db x t posArg = .error e ∧ move cfg db x0 t0 posArg = .error e) ∨
      ∃ res res0 t1, move cfg db x t posArg = .ok res ∧ move cfg db x0 t0 posArg = .ok res0 ∧ res.db = res0.db ∧ t1.pk = t0.pk ∧ OutInv cfg res.db xs res.target t1) := by
  obtain ⟨x0, hx0, hxa⟩ := h.stored x (List.mem_cons_self ..)
  refine ⟨x0, hx0, hxa.pk.symm, ?_⟩
  have hs := move_same (db := db) ho hxa h.near hprep
  have hroom := h.room hok hx0 hxa
  have hin := h.inside x (List.mem_cons_self ..)
  rw [hxa.path] at hin
  have hgood := move_unsorted hok h.inv ho hx0 h.target hprep (fun e _ => absurd e hroom)
  cases e0 : move cfg db x0 t0 posArg with
  | error e =>
    rw [e0] at hs
    cases e1 : move cfg db x t posArg with
    | error e' => rw [e1] at hs; exact Or.inl ⟨e', rfl, by rw [show e' = e from hs]⟩
    | ok r => rw [e1] at hs; exact hs.elim
  | ok res0 =>
    rw [e0] at hs hgood
    cases e1 : move cfg db x t posArg with
    | error e' => rw [e1] at hs; exact hs.elim
    | ok res =>
      rw [e1] at hs
      obtain ⟨hdb, htt⟩ := hs
      obtain ⟨hnr, ⟨res', e, hg⟩ | ⟨e, _⟩⟩ := hgood.resolve_left (fun h' => by cases h'.2)
      rotate_left
      · cases e
      cases e
      have hkept := right_kept hok h.inv ho hx0 h.target hprep hin e0
      have hstored : ∀ y ∈ xs, ∃ r ∈ res.db.rows, Alike y r := by
        intro y hy
        obtain ⟨r, hr, ha⟩ := h.stored y (List.mem_cons_of_mem _ hy)
        have hap := (List.pairwise_cons.1 h.apart).1 y hy
        obtain ⟨r', hr', ha'⟩ := hkept r hr (by rw [← hxa.path, ← ha.path]; exact hap) (by rw [← ha.path]; exact (h.inside y (List.mem_cons_of_mem _ hy)).1)
        exact ⟨r', hdb ▸ hr', ha.trans ha'⟩
      have hap := (List.pairwise_cons.1 h.apart).2
      obtain ⟨t1, ht1, ha⟩ := hkept t0 h.target (fun hp => by have := hp.length_le; have := hin.2; omega) (List.prefix_refl _)
      refine Or.inr ⟨res, res0, t1, rfl, rfl, hdb, ha.pk.symm, hdb ▸ hg.inv, hstored, hap, hdb ▸ ht1, ?_, ?_⟩
      · rcases (move_objects hx0 h.target (cfg := cfg) (by rw [ho]; exact hprep) e0).2 with ⟨h1, h2⟩ | ⟨h1, _⟩
        · have hte : t1 = res0.target := hg.inv.inv.pk_inj ht1 h1 (by rw [h2, ha.pk])
          rcases htt with e | ⟨e, e'⟩
          · rw [e, hte]; exact .refl (hg.inv.count_nonneg h1)
          · rw [e, hte, e']; exact h.near.gained (h.inv.count_nonneg h.target)
        · cases h1
      · intro y hy
        rw [← ha.path]
        exact h.inside y (List.mem_cons_of_mem _ hy)

/-- **The loop with the objects fetched before does the same as that with objects fetched anew.** -/
theorem outLoop_fresh (hok : cfg.Ok) (ho : cfg.ordered = false) {posArg : Option Pos} (hprep : preparePosForMove false posArg = .ok .right) :
    ∀ {xs : List Row} {t t0 : Row} {db : DB}, OutInv cfg db xs t t0 → moveLoop cfg posArg xs t db = moveFresh cfg posArg t0.pk (xs.map Row.pk) db := by
  intro xs
  induction xs with
  | nil => intros; rfl
  | cons x xs ih =>
    intro t t0 db h
    obtain ⟨x0, hx0, hpk, hstep⟩ := h.step hok ho hprep
    have e1 : db.get? x.pk = some x0 := (get?_eq_some h.inv.inv).2 ⟨hx0, hpk⟩
    have e2 : db.get? t0.pk = some t0 := (get?_eq_some h.inv.inv).2 ⟨h.target, rfl⟩
    rw [List.map_cons]
    unfold moveLoop moveFresh
    rw [e1, e2]
    rcases hstep with ⟨e, h1, h2⟩ | ⟨res, res0, t1, h1, h2, h3, h4, h5⟩
    · simp only [h1, h2]
    · simp only [h1, h2]
      rw [← h3, ← h4]
      exact ih h5

theorem out_loop (hok : cfg.Ok) (ho : cfg.ordered = false) {posArg : Option Pos} (hprep : preparePosForMove false posArg = .ok .right) (harg : posArg = some .right) :
    ∀ {xs : List Row} {t t0 : Row} {db : DB}, OutInv cfg db xs t t0 → LoopGood cfg db .right t0.pk (xs.map Row.pk) (moveLoop cfg posArg xs t db) := by
  intro xs
  induction xs with
  | nil => intro t t0 db h; exact ⟨(consistent_iff hok).2 h.inv, rfl, .nil⟩
  | cons x xs ih =>
    intro t t0 db h
    obtain ⟨x0, hx0, hpk, hstep⟩ := h.step hok ho hprep
    have hcons := (consistent_iff hok).2 h.inv
    have hxa : Alike x x0 := by
      obtain ⟨r, hr, ha⟩ := h.stored x (List.mem_cons_self ..)
      rwa [← h.inv.inv.pk_inj hr hx0 (by rw [hpk, ha.pk])]
    have hroom := h.room hok hx0 hxa
    have hin := h.inside x (List.mem_cons_self ..)
    rw [hxa.path] at hin
    rw [List.map_cons, ← hpk]
    unfold moveLoop
    have hr : ¬ (forest cfg db).MoveRefused x0.pk t0.pk .right := by
      rw [forest_eq h.inv hok]
      rintro (h1 | ⟨h1, _⟩)
      · rw [desc_PF h.inv.toPInv hok hx0 h.target] at h1
        have := h1.1.length_le
        have := hin.2
        omega
      · cases h1
    obtain ⟨p, hp, hm⟩ := C07_move_free hok hcons ho hx0 h.target (Or.inl (Or.inr (Or.inr (Or.inl rfl)))) (Or.inl harg) hr
    have hfree : x0.pk ∉ forest cfg db (Pos.right.dest p t0.pk) := by
      intro hin
      have hpp : p = par cfg db.rows t0 := by
        rw [forest_eq h.inv hok] at hp
        obtain ⟨r, hr, e1, e2⟩ := (mem_PF h.inv.toPInv).1 hp
        rw [← e1, h.inv.inv.pk_inj hr h.target e2]
      rw [hpp, ← at?_dest h.inv h.target, forest_eq h.inv hok] at hin
      obtain ⟨r, hr, e1, e2⟩ := (mem_PF h.inv.toPInv).1 hin
      rw [h.inv.inv.pk_inj hr hx0 e2] at e1
      exact hroom ((par_eq_at h.inv.toPInv hok hx0 (destPath_isPar h.inv h.target .right)).1 e1)
    rcases hm (Or.inl hfree) with ⟨r, e, hg⟩ | ⟨e, hl⟩
    · rcases hstep with ⟨e', h1, h2⟩ | ⟨res, res0, t1, h1, h2, h3, h4, h5⟩
      · rw [e] at h2; cases h2
      · rw [e] at h2
        cases h2
        rw [h1]
        simp only
        have := ih h5
        rw [h4] at this
        refine ⟨this.consistent, ?_, ?_⟩
        · rw [this.data, h3]; exact hg.data
        · refine .cons hp hr ?_
          have e2 := hg.forest
          rw [← h3] at e2
          rw [← e2]
          exact this.out
    · rcases hstep with ⟨e', h1, h2⟩ | ⟨res, res0, t1, h1, h2, h3, h4, h5⟩
      · rw [e] at h2
        cases h2
        rw [h1]
        exact ⟨hcons, rfl, .stop (Or.inr ⟨rfl, p, hp, hl⟩)⟩
      · rw [e] at h2; cases h2

end Verif.MP
