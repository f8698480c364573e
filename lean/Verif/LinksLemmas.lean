/-
Many-to-many relations through `dump_bulk` and `load_bulk`, for all backends.
-/
import Verif.LinksModel
import Verif.LoadGeneric

namespace Verif

/-! ### Saving relations -/

theorem saveM2m_eq (L : Links) (k : Nat) (m : M2M) : saveM2m L k m = m.foldl (fun L e => setLink L k e.1 e.2) L := by
  unfold saveM2m
  split
  · rename_i h
    rw [List.isEmpty_iff.1 h]; rfl
  · rfl

theorem foldl_setLink_other {L : Links} {k k' : Nat} {m : M2M} (h : k' ≠ k) : (m.foldl (fun L e => setLink L k e.1 e.2) L) k' = L k' := by
  induction m generalizing L with
  | nil => rfl
  | cons e m ih =>
    rw [List.foldl_cons, ih]
    funext a
    simp [setLink, h]

theorem foldl_setLink_not {L : Links} {k a : Nat} {m : M2M} (h : a ∉ m.map Prod.fst) : (m.foldl (fun L e => setLink L k e.1 e.2) L) k a = L k a := by
  induction m generalizing L with
  | nil => rfl
  | cons e m ih =>
    simp only [List.map_cons, List.mem_cons, not_or] at h
    rw [List.foldl_cons, ih h.2]
    simp [setLink, h.1]

theorem foldl_setLink_given {L : Links} {k : Nat} {m : M2M} (hnd : (m.map Prod.fst).Nodup) {e : Nat × List Nat} (he : e ∈ m) :
    (m.foldl (fun L e => setLink L k e.1 e.2) L) k e.1 = e.2 := by
  induction m generalizing L with
  | nil => cases he
  | cons x m ih =>
    simp only [List.map_cons, List.nodup_cons] at hnd
    rw [List.foldl_cons]
    rcases List.mem_cons.1 he with rfl | he
    · rw [foldl_setLink_not hnd.1]
      simp [setLink]
    · exact ih hnd.2 he

theorem saveM2m_other {L : Links} {k k' : Nat} {m : M2M} (h : k' ≠ k) : saveM2m L k m k' = L k' := by
  rw [saveM2m_eq, foldl_setLink_other h]

theorem saveM2m_not {L : Links} {k a : Nat} {m : M2M} (h : a ∉ m.map Prod.fst) : saveM2m L k m k a = L k a := by
  rw [saveM2m_eq, foldl_setLink_not h]

theorem saveM2m_given {L : Links} {k : Nat} {m : M2M} (hnd : (m.map Prod.fst).Nodup) {e : Nat × List Nat} (he : e ∈ m) :
    saveM2m L k m k e.1 = e.2 := by
  rw [saveM2m_eq, foldl_setLink_given hnd he]

/-- the relations of several nodes, one after the other -/
def saveLinks (L : Links) (ps : List (Nat × M2M)) : Links := ps.foldl (fun L p => saveM2m L p.1 p.2) L

theorem saveLinks_append (L : Links) (ps qs : List (Nat × M2M)) : saveLinks L (ps ++ qs) = saveLinks (saveLinks L ps) qs := by
  simp [saveLinks, List.foldl_append]

theorem saveLinks_other {L : Links} {ps : List (Nat × M2M)} {k : Nat} (h : k ∉ ps.map Prod.fst) : saveLinks L ps k = L k := by
  induction ps generalizing L with
  | nil => rfl
  | cons p ps ih =>
    simp only [List.map_cons, List.mem_cons, not_or] at h
    show saveLinks (saveM2m L p.1 p.2) ps k = L k
    rw [ih h.2, saveM2m_other h.1]

theorem saveLinks_linked {L : Links} {ps : List (Nat × M2M)} (hnd : (ps.map Prod.fst).Nodup) (hm : ∀ p ∈ ps, (p.2.map Prod.fst).Nodup) :
    Linked L (saveLinks L ps) ps := by
  refine ⟨?_, ?_, fun k hk => saveLinks_other hk⟩
  · induction ps generalizing L with
    | nil => simp
    | cons p ps ih =>
      simp only [List.map_cons, List.nodup_cons] at hnd
      intro q hq e he
      show saveLinks (saveM2m L p.1 p.2) ps q.1 e.1 = e.2
      rcases List.mem_cons.1 hq with rfl | hq
      · rw [saveLinks_other hnd.1, saveM2m_given (hm _ (by simp)) he]
      · exact ih hnd.2 (fun p hp => hm p (by simp [hp])) q hq e he
  · induction ps generalizing L with
    | nil => simp
    | cons p ps ih =>
      simp only [List.map_cons, List.nodup_cons] at hnd
      intro q hq a ha
      show saveLinks (saveM2m L p.1 p.2) ps q.1 a = L q.1 a
      rcases List.mem_cons.1 hq with rfl | hq
      · rw [saveLinks_other hnd.1, saveM2m_not ha]
      · rw [ih hnd.2 (fun p hp => hm p (by simp [hp])) q hq a ha, saveM2m_other]
        rintro e
        exact hnd.1 (e ▸ List.mem_map_of_mem hq)

/-- the relations after saving are determined -/
theorem Linked.eq {L L₁ L₂ : Links} {ps qs : List (Nat × M2M)} (hp : ps.Perm qs) (h1 : Linked L L₁ ps) (h2 : Linked L L₂ qs) : L₁ = L₂ := by
  funext k a
  by_cases hk : k ∈ ps.map Prod.fst
  · obtain ⟨p, hps, rfl⟩ := List.mem_map.1 hk
    by_cases ha : a ∈ p.2.map Prod.fst
    · obtain ⟨e, he, rfl⟩ := List.mem_map.1 ha
      rw [h1.given p hps e he, h2.given p (hp.mem_iff.1 hps) e he]
    · rw [h1.notGiven p hps a ha, h2.notGiven p (hp.mem_iff.1 hps) a ha]
  · rw [h1.others k hk, h2.others k (fun h => hk ((hp.map _).mem_iff.2 h))]

/-! ### Loading -/

section load
variable {σ ρ α : Type}

theorem loadNest_length {add : σ → Option ρ → α → Except Err (σ × ρ)} {pk : ρ → Nat} {n : Nest α} :
    ∀ {db : σ} {p : Option ρ} {db' : σ} {added : List Nat}, loadNest add pk db p n = .ok (db', added) → added.length = n.labels.length := by
  induction n with
  | nil => intro db p db' added e; simp only [loadNest, Except.ok.injEq, Prod.mk.injEq] at e; rw [← e.2]; rfl
  | cons a c r ihc ihr =>
    intro db p db' added e
    rw [loadNest] at e
    split at e
    · cases e
    · split at e
      · cases e
      · rename_i e1
        split at e
        · cases e
        · rename_i e2
          simp only [Except.ok.injEq, Prod.mk.injEq] at e
          rw [← e.2]
          simp [Nest.labels, ihc e1, ihr e2]

/-- The relations change nothing for the tree; those of the added nodes are saved. -/
theorem loadNest_links (add : σ → Option ρ → α → Except Err (σ × ρ)) (pk : ρ → Nat) (n : Nest (α × M2M)) :
    ∀ (db : σ) (L : Links) (p : Option ρ), loadNest (addLinks add pk) pk (db, L) p n =
      match loadNest add pk db p (n.map Prod.fst) with
      | .error e => .error e
      | .ok (db', added) => .ok ((db', saveLinks L (added.zip (n.labels.map Prod.snd))), added) := by
  induction n with
  | nil => intro db L p; rfl
  | cons a c r ihc ihr =>
    obtain ⟨a, m⟩ := a
    intro db L p
    simp only [loadNest, Nest.map, addLinks]
    rcases add db p a with e | ⟨db1, obj⟩
    · rfl
    · simp only
      rw [ihc]
      rcases h1 : loadNest add pk db1 (some obj) (c.map Prod.fst) with e | ⟨db2, l1⟩
      · rfl
      · simp only
        rw [ihr]
        rcases h2 : loadNest add pk db2 p (r.map Prod.fst) with e | ⟨db3, l2⟩
        · rfl
        · have hl := loadNest_length h1
          simp only [Nest.labels, List.map_cons, List.map_append, List.zip_cons_cons]
          rw [List.zip_append (by simpa [Nest.labels_map] using hl)]
          show Except.ok ((db3, _), _) = Except.ok ((db3, saveLinks (saveM2m L (pk obj) m) _), _)
          rw [saveLinks_append]

theorem loadBulk_links (add : σ → Option ρ → α → Except Err (σ × ρ)) (pk : ρ → Nat) (db : σ) (L : Links) (p : Option ρ) (n : Nest (α × M2M)) :
    loadBulk (addLinks add pk) pk (db, L) p n =
      match loadBulk add pk db p (n.map Prod.fst) with
      | .error e => .error e
      | .ok (db', added) => .ok ((db', saveLinks L (added.zip (n.labels.map Prod.snd))), added) := by
  rw [loadBulk_eq, loadBulk_eq, loadNest_links]

/-- the returned keys are those of the data, in its order -/
theorem loadBulk_keys {add : σ → Option ρ → Nat × Vals → Except Err (σ × ρ)} {pk : ρ → Nat}
    (hadd : ∀ db p a db' obj, add db p a = .ok (db', obj) → pk obj = a.1) {n : Nest (Nat × Vals)} {db : σ} {p : Option ρ} {db' : σ} {added : List Nat}
    (e : loadBulk add pk db p n = .ok (db', added)) : added = n.labels.map Prod.fst := by
  rw [loadBulk_eq] at e
  induction n generalizing db p db' added with
  | nil => simp only [loadNest, Except.ok.injEq, Prod.mk.injEq] at e; rw [← e.2]; rfl
  | cons a c r ihc ihr =>
    rw [loadNest] at e
    split at e
    · cases e
    · rename_i e0
      split at e
      · cases e
      · rename_i e1
        split at e
        · cases e
        · rename_i e2
          simp only [Except.ok.injEq, Prod.mk.injEq] at e
          rw [← e.2, hadd _ _ _ _ _ e0, ihc e1, ihr e2]
          simp [Nest.labels]

/-- What `load_bulk` does with relations. -/
theorem loadBulk_linked {add : σ → Option ρ → Nat × Vals → Except Err (σ × ρ)} {pk : ρ → Nat}
    (hadd : ∀ db p a db' obj, add db p a = .ok (db', obj) → pk obj = a.1) (db : σ) (L : Links) (p : Option ρ) {n : Nest ((Nat × Vals) × M2M)}
    (hnd : (n.labels.map (fun x => x.1.1)).Nodup) (hm : ∀ x ∈ n.labels, (x.2.map Prod.fst).Nodup) :
    (∀ e, loadBulk add pk db p (n.map Prod.fst) = .error e → loadBulk (addLinks add pk) pk (db, L) p n = .error e) ∧
    ∀ db' added, loadBulk add pk db p (n.map Prod.fst) = .ok (db', added) → ∃ L', loadBulk (addLinks add pk) pk (db, L) p n = .ok ((db', L'), added) ∧
      added = n.labels.map (fun x => x.1.1) ∧ Linked L L' (n.labels.map (fun x => (x.1.1, x.2))) := by
  constructor
  · intro e he
    rw [loadBulk_links, he]
  · intro db' added he
    have hk := loadBulk_keys hadd he
    rw [Nest.labels_map, List.map_map] at hk
    refine ⟨_, by rw [loadBulk_links, he], hk, ?_⟩
    have hz : added.zip (n.labels.map Prod.snd) = n.labels.map (fun x => (x.1.1, x.2)) := by
      rw [hk, List.zip_map', Function.comp_def]
    rw [hz]
    refine saveLinks_linked (by rw [List.map_map]; exact hnd) ?_
    intro q hq
    obtain ⟨x, hx, rfl⟩ := List.mem_map.1 hq
    exact hm x hx

end load

/-! ### Preparing -/

theorem prepareLinks_spec (keep : Bool) (keys : Nat → Nat) (x : Nest (Item × M2M)) :
    ∀ i, (∀ e, prepare keep keys i (x.map Prod.fst) = .error e → prepareLinks keep keys i x = .error e) ∧
      ∀ m j, prepare keep keys i (x.map Prod.fst) = .ok (m, j) → ∃ m', prepareLinks keep keys i x = .ok (m', j) ∧ m'.map Prod.fst = m ∧
        m'.map Prod.snd = x.map Prod.snd := by
  induction x with
  | nil =>
    intro i
    refine ⟨fun e h => by simp [Nest.map, prepare] at h, fun m j h => ?_⟩
    simp only [Nest.map, prepare, Except.ok.injEq, Prod.mk.injEq] at h
    exact ⟨.nil, by rw [prepareLinks, h.2], by rw [← h.1]; rfl, rfl⟩
  | cons a c r ihc ihr =>
    obtain ⟨⟨pk, v⟩, w⟩ := a
    intro i
    simp only [Nest.map, prepare, prepareLinks]
    rcases itemKey keep keys i pk with e | ⟨k, i⟩
    · exact ⟨fun e' h => by cases h; rfl, fun m j h => by cases h⟩
    · simp only
      obtain ⟨c1, c2⟩ := ihc i
      rcases hc : prepare keep keys i (c.map Prod.fst) with e | ⟨c', i'⟩
      · rw [c1 e hc]
        exact ⟨fun e' h => by cases h; rfl, fun m j h => by cases h⟩
      · obtain ⟨mc, ec, fc, sc⟩ := c2 c' i' hc
        rw [ec]
        simp only
        obtain ⟨r1, r2⟩ := ihr i'
        rcases hr : prepare keep keys i' (r.map Prod.fst) with e | ⟨r', i''⟩
        · rw [r1 e hr]
          exact ⟨fun e' h => by cases h; rfl, fun m j h => by cases h⟩
        · obtain ⟨mr, er, fr, sr⟩ := r2 r' i'' hr
          rw [er]
          refine ⟨fun e' h => by simp at h, fun m j h => ?_⟩
          simp only [Except.ok.injEq, Prod.mk.injEq] at h
          refine ⟨_, by rw [h.2], ?_, ?_⟩
          · rw [← h.1, Nest.map, fc, fr]
          · rw [Nest.map, sc, sr]

/-! ### Round trip -/

theorem Nest.map_factor {f : α → γ} {g : β → γ} {n : Nest α} {m : Nest β} (h : n.map f = m.map g) (φ : γ → δ) : n.map (φ ∘ f) = m.map (φ ∘ g) := by
  rw [← Nest.map_map, ← Nest.map_map, h]

theorem Forest.DFS.renamed {F F' : Forest} {ks : List Nat} {f : Nat → Nat} (h : F.Renamed F' ks f) {cs l : List Nat} (hd : F.DFS cs l) :
    (∀ k ∈ l, k ∈ ks) → F'.DFS (cs.map f) (l.map f) := by
  induction hd with
  | nil => exact fun _ => .nil
  | @cons c cs l1 l2 _ _ ih1 ih2 =>
    intro hk
    simp only [List.mem_cons, List.mem_append] at hk
    rw [List.map_cons, List.map_cons, List.map_append]
    refine .cons ?_ (ih2 (fun k h => hk k (Or.inr (Or.inr h))))
    rw [h.kids c (hk c (Or.inl rfl))]
    exact ih1 (fun k h => hk k (Or.inr (Or.inl h)))

theorem Forest.DFS.det {F : Forest} {cs l l' : List Nat} (h : F.DFS cs l) (h' : F.DFS cs l') : l = l' := by
  obtain ⟨n, hn, rfl⟩ := Nest.shown_of_dfs h
  obtain ⟨n', hn', rfl⟩ := Nest.shown_of_dfs h'
  rw [hn.unique hn']

/-- What a dump with relations shows.  `out` are the rows in the loop of `dump_bulk`, with `keep_ids` for the first part. -/
theorem dump_links {ρ : Type} {pk : ρ → Nat} {vals : ρ → Vals} {out : Except Err (Nest ρ)} {F : Forest} {v : Nat → Vals} {cs : List Nat}
    (h : ∃ d, out.map (Nest.map (itemOf pk vals true)) = .ok d ∧ Dumps F v true cs d) (as : List Nat) (L : Links) (keep : Bool) :
    ∃ n, Nest.Shown (fun k => F (some k)) cs n ∧
      out.map (Nest.map (itemOf pk vals keep)) = .ok (n.map (fun k => (if keep then some k else none, v k))) ∧
      out.map (Nest.map (fun r => (itemOf pk vals keep r, m2mOf as L (pk r)))) =
        .ok (n.map (fun k => ((if keep then some k else none, v k), m2mOf as L k))) := by
  obtain ⟨d, e, n, hn, rfl⟩ := h
  rcases out with err | ret
  · cases e
  · have e : ret.map (itemOf pk vals true) = n.map (fun k => (some k, v k)) := Except.ok.inj e
    refine ⟨n, hn, congrArg Except.ok ?_, congrArg Except.ok ?_⟩
    · have := Nest.map_factor e (fun x : Item => ((if keep then x.1 else none, x.2) : Item))
      refine Eq.trans ?_ (this.trans ?_) <;> exact Nest.map_congr (fun a _ => by cases keep <;> rfl)
    · have := Nest.map_factor e (fun x : Item => (((if keep then x.1 else none, x.2) : Item), m2mOf as L (x.1.getD 0)))
      refine Eq.trans ?_ (this.trans ?_) <;> exact Nest.map_congr (fun a _ => by cases keep <;> rfl)

/-- The round trip with relations, from the one without. -/
theorem roundtrip_links {σ ρ : Type} {add : σ → Option ρ → Nat × Vals → Except Err (σ × ρ)} {pk : ρ → Nat} {F F' : Forest} {D D' : List (Nat × Vals)}
    (hF : F.IsForestOn (D.map Prod.fst)) {v : Nat → Vals} {keep : Bool} {keys : Nat → Nat} {as : List Nat} (has : as.Nodup) (L L₀ : Links)
    {n : Nest Nat} (hn : Nest.Shown (fun k => F (some k)) (F none) n) {m : Nest (Nat × Vals)} {i : Nat}
    (ep : prepare keep keys 0 (n.map (fun k => (if keep then some k else none, v k))) = .ok (m, i)) {s₀ s' : σ} {added : List Nat}
    (el : loadBulk add pk s₀ none m = .ok (s', added)) (ha : F'.DFS (F' none) added) (hr : Restored keep F F' D D') :
    ∃ m' L', prepareLinks keep keys 0 (n.map (fun k => ((if keep then some k else none, v k), m2mOf as L k))) = .ok (m', i) ∧
      loadBulk (addLinks add pk) pk (s₀, L₀) none m' = .ok ((s', L'), added) ∧ RestoredLinks keep F F' D D' as L L₀ L' := by
  obtain ⟨l, hl, hlnd, hperm⟩ := hF.listing
  have hlab : n.labels = l := hn.dfs.det hl
  have hmem : ∀ k, k ∈ n.labels ↔ k ∈ D.map Prod.fst := fun k => by rw [hlab]; exact hperm.mem_iff
  have hnd : n.labels.Nodup := by rw [hlab]; exact hlnd
  obtain ⟨m', ep', hfst, hsnd⟩ := (prepareLinks_spec keep keys (n.map (fun k => ((if keep then some k else none, v k), m2mOf as L k))) 0).2 m i
    (by rw [Nest.map_map]; exact ep)
  have hms : m'.labels.map Prod.snd = n.labels.map (m2mOf as L) := by
    rw [← Nest.labels_map, hsnd, Nest.map_map, Nest.labels_map]; rfl
  have key : ∀ f : Nat → Nat, added = n.labels.map f → (∀ a ∈ n.labels, ∀ b ∈ n.labels, f a = f b → a = b) →
      Linked L₀ (saveLinks L₀ (added.zip (m'.labels.map Prod.snd))) (n.labels.map (fun k => (f k, m2mOf as L k))) := by
    intro f hf hinj
    have hz : added.zip (m'.labels.map Prod.snd) = n.labels.map (fun k => (f k, m2mOf as L k)) := by
      rw [hf, hms, List.zip_map']
    rw [hz]
    refine saveLinks_linked ?_ ?_
    · rw [List.map_map]
      exact hnd.map_on (fun a ha b hb e => hinj a ha b hb e)
    · intro q hq
      obtain ⟨k, _, rfl⟩ := List.mem_map.1 hq
      simpa [m2mOf, Function.comp_def] using has
  have hgiven : ∀ f : Nat → Nat, added = n.labels.map f → (∀ a ∈ n.labels, ∀ b ∈ n.labels, f a = f b → a = b) →
      ∀ k ∈ D.map Prod.fst, ∀ a ∈ as, saveLinks L₀ (added.zip (m'.labels.map Prod.snd)) (f k) a = L k a := by
    intro f hf hinj k hk a haa
    exact (key f hf hinj).given (f k, m2mOf as L k) (List.mem_map_of_mem ((hmem k).2 hk)) (a, L k a) (List.mem_map_of_mem haa)
  obtain ⟨f, hren, hp⟩ := hr.renamed
  have hinj : ∀ a ∈ n.labels, ∀ b ∈ n.labels, f a = f b → a = b := fun a ha b hb => hren.inj a ((hmem a).1 ha) b ((hmem b).1 hb)
  have hadd : added = n.labels.map f := by
    have := hn.dfs.renamed hren (fun k hk => (hmem k).1 hk)
    rw [← hren.roots] at this
    exact ha.det this
  refine ⟨m', _, ep', by rw [loadBulk_links, hfst, el], ⟨f, hren, hp, hgiven f hadd hinj⟩, ?_, ?_, ?_⟩
  · intro hk
    obtain ⟨e1, e2⟩ := hr.same hk
    subst e1
    refine ⟨rfl, e2, ?_⟩
    have := hgiven id (by rw [List.map_id]; exact ha.det hn.dfs) (fun a _ b _ e => e)
    simpa using this
  · intro k hk
    refine (key f hadd hinj).others k (fun h => hk ?_)
    rw [List.map_map] at h
    obtain ⟨a, ha', rfl⟩ := List.mem_map.1 h
    obtain ⟨e, he, rfl⟩ := List.mem_map.1 ((hmem a).1 ha')
    exact List.mem_map.2 ⟨(f e.1, e.2), hp.mem_iff.2 (List.mem_map.2 ⟨e, he, rfl⟩), rfl⟩
  · intro k a haa
    by_cases hk : k ∈ (n.labels.map (fun k => (f k, m2mOf as L k))).map Prod.fst
    · obtain ⟨q, hq, rfl⟩ := List.mem_map.1 hk
      refine (key f hadd hinj).notGiven q hq a ?_
      obtain ⟨j, _, rfl⟩ := List.mem_map.1 hq
      simpa [m2mOf, Function.comp_def] using haa
    · rw [(key f hadd hinj).others k hk]

end Verif
