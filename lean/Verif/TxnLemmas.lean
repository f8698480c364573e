/-
Concurrent transactions are serialisable, if what a client has read and done so far is not upset by the commits of clients that
lock other rows.  If all lock the same row, nothing is needed.
-/
import Verif.Txn
import Mathlib.Algebra.Order.BigOperators.Group.Finset

namespace Verif.Txn

variable {ι σ ℓ : Type} [DecidableEq ι]

/-- The client would now be at `rest`, with these changes and variables, if it had made its statements on `db`. -/
inductive Reached (c : Client σ ℓ) (db : σ) : List (Stmt σ ℓ) → (σ → σ) → ℓ → Prop where
  | start : Reached c db c.body id c.start
  | stmt {st : Stmt σ ℓ} {rest : List (Stmt σ ℓ)} {w u : σ → σ} {l l' : ℓ} :
      Reached c db (st :: rest) w l → st (w db) l = .ok (u, l') → Reached c db rest (u ∘ w) l'

theorem Reached.exec {c : Client σ ℓ} {db : σ} {rest : List (Stmt σ ℓ)} {w : σ → σ} {l : ℓ} (h : Reached c db rest w l) :
    c.alone db = c.finish (exec rest (w db) l) := by
  induction h with
  | start => rfl
  | stmt _ he ih => rw [ih]; simp [Txn.exec, he]

/-- A property of running clients that can only end with an exception of `E`. -/
structure Doomed (c : ι → Client σ ℓ) (J : List ι → σ → Prop) (D : ι → σ → List (Stmt σ ℓ) → (σ → σ) → ℓ → Prop) (E : Err → Prop) : Prop where
  stmt : ∀ i db st rest w l u l', D i db (st :: rest) w l → st (w db) l = .ok (u, l') → D i db rest (u ∘ w) l'
  raise : ∀ i db st rest w l e, D i db (st :: rest) w l → st (w db) l = .error e → E e
  reject : ∀ i db w l, D i db [] w l → ∃ e, (c i).check (w db) = some e ∧ E e
  other : ∀ log db db' i j l rest w li, J log db → i ∉ log → j ∉ log → i ≠ j → (c j).alone db = .ok (db', l) → D i db rest w li → D i db' rest w li

/-- Commits of others that lock another row do not upset what a client has done, or else it is doomed. -/
def StableOr (c : ι → Client σ ℓ) (J : List ι → σ → Prop) (D : ι → σ → List (Stmt σ ℓ) → (σ → σ) → ℓ → Prop) : Prop :=
  ∀ ⦃log : List ι⦄ ⦃db db' : σ⦄ ⦃i j : ι⦄ ⦃l li : ℓ⦄ ⦃rest : List (Stmt σ ℓ)⦄ ⦃w : σ → σ⦄, J log db → i ∉ log → j ∉ log → i ≠ j →
    (c i).key ≠ (c j).key → (c j).alone db = .ok (db', l) → Reached (c i) db rest w li → Reached (c i) db' rest w li ∨ D i db' rest w li

/-- Commits of others that lock another row do not upset what a client has done. -/
def Stable (c : ι → Client σ ℓ) (J : List ι → σ → Prop) : Prop :=
  ∀ ⦃log : List ι⦄ ⦃db db' : σ⦄ ⦃i j : ι⦄ ⦃l li : ℓ⦄ ⦃rest : List (Stmt σ ℓ)⦄ ⦃w : σ → σ⦄, J log db → i ∉ log → j ∉ log → i ≠ j →
    (c i).key ≠ (c j).key → (c j).alone db = .ok (db', l) → Reached (c i) db rest w li → Reached (c i) db' rest w li

/-- Each transaction alone keeps `J`. -/
def Keeps (c : ι → Client σ ℓ) (J : List ι → σ → Prop) : Prop :=
  ∀ ⦃log : List ι⦄ ⦃db db' : σ⦄ ⦃i : ι⦄ ⦃l : ℓ⦄, J log db → i ∉ log → (c i).alone db = .ok (db', l) → J (log ++ [i]) db'

/-- What holds at every moment. -/
structure InvOr (c : ι → Client σ ℓ) (J : List ι → σ → Prop) (D : ι → σ → List (Stmt σ ℓ) → (σ → σ) → ℓ → Prop) (E : Err → Prop) (db₀ : σ)
    (s : State ι σ ℓ) : Prop where
  serial : Serial c db₀ s.log s.db
  keeps : J s.log s.db
  running : ∀ i rest w l, s.phase i = .running rest w l → Reached (c i) s.db rest w l ∨ D i s.db rest w l
  excl : ∀ i j, (s.phase i).holds = true → (s.phase j).holds = true → (c i).key = (c j).key → i = j
  nodup : s.log.Nodup
  logged : ∀ i, i ∈ s.log ↔ ∃ l, s.phase i = .committed l
  result : ∀ i l, s.phase i = .committed l → ∃ pre post db db', s.log = pre ++ i :: post ∧ Serial c db₀ pre db ∧ J pre db ∧
    (c i).alone db = .ok (db', l)
  raised : ∀ i e, s.phase i = .raised e → E e ∨ ∃ pre db, pre <+: s.log ∧ Serial c db₀ pre db ∧ J pre db ∧ (c i).alone db = .error e

variable {c : ι → Client σ ℓ} {J : List ι → σ → Prop} {D : ι → σ → List (Stmt σ ℓ) → (σ → σ) → ℓ → Prop} {E : Err → Prop}
  {db₀ : σ} {s s' : State ι σ ℓ}

omit [DecidableEq ι] in
theorem InvOr.init (hJ : J [] db₀) : InvOr c J D E db₀ (.init db₀) :=
  ⟨.nil, hJ, by simp [State.init], by simp [State.init, Phase.holds], by simp [State.init], by simp [State.init], by simp [State.init],
    by simp [State.init]⟩

theorem set_same (s : State ι σ ℓ) (i : ι) (p : Phase σ ℓ) : (s.set i p).phase i = p := by simp [State.set]

theorem set_other (s : State ι σ ℓ) {i j : ι} (p : Phase σ ℓ) (h : j ≠ i) : (s.set i p).phase j = s.phase j := by simp [State.set, h]

/-- A step that leaves the table alone, of a client that has not committed. -/
theorem InvOr.quiet (h : InvOr c J D E db₀ s) {i : ι} (hi : (s.phase i).finished = false) {p : Phase σ ℓ}
    (hrun : ∀ rest w l, p = .running rest w l → Reached (c i) s.db rest w l ∨ D i s.db rest w l)
    (hex : p.holds = true → ∀ j, j ≠ i → (s.phase j).holds = true → (c j).key ≠ (c i).key)
    (hnc : ∀ l, p ≠ .committed l)
    (hra : ∀ e, p = .raised e → E e ∨ (c i).alone s.db = .error e) : InvOr c J D E db₀ (s.set i p) := by
  have hni : i ∉ s.log := by
    intro hm
    obtain ⟨l, e⟩ := (h.logged i).1 hm
    rw [e] at hi
    cases hi
  refine ⟨h.serial, h.keeps, ?_, ?_, h.nodup, ?_, ?_, ?_⟩
  · intro j rest w l e
    by_cases hj : j = i
    · subst hj; rw [set_same] at e; exact hrun _ _ _ e
    · rw [set_other _ _ hj] at e; exact h.running j _ _ _ e
  · intro j k hj hk hkey
    by_cases h1 : j = i
    · by_cases h2 : k = i
      · rw [h1, h2]
      · subst h1
        rw [set_same] at hj
        rw [set_other _ _ h2] at hk
        exact absurd hkey.symm (hex hj k h2 hk)
    · by_cases h2 : k = i
      · subst h2
        rw [set_same] at hk
        rw [set_other _ _ h1] at hj
        exact absurd hkey (hex hk j h1 hj)
      · rw [set_other _ _ h1] at hj
        rw [set_other _ _ h2] at hk
        exact h.excl j k hj hk hkey
  · intro j
    by_cases hj : j = i
    · subst hj
      rw [set_same]
      exact ⟨fun hm => absurd hm hni, fun ⟨l, e⟩ => absurd e (hnc l)⟩
    · rw [set_other _ _ hj]; exact h.logged j
  · intro j l e
    by_cases hj : j = i
    · subst hj; rw [set_same] at e; exact absurd e (hnc l)
    · rw [set_other _ _ hj] at e; exact h.result j l e
  · intro j e' e
    by_cases hj : j = i
    · subst hj; rw [set_same] at e
      exact (hra e' e).imp_right fun e => ⟨s.log, s.db, List.prefix_rfl, h.serial, h.keeps, e⟩
    · rw [set_other _ _ hj] at e; exact h.raised j e' e

theorem InvOr.step (hst : StableOr c J D) (hdo : Doomed c J D E) (hk : Keeps c J) (h : InvOr c J D E db₀ s) (hs : Step c s s') :
    InvOr c J D E db₀ s' := by
  cases hs with
  | lock i hw hfree =>
    refine h.quiet (by rw [hw]; rfl) ?_ (fun _ j _ hj => hfree j hj) (by simp) (by simp)
    intro rest w l e
    cases e
    exact Or.inl .start
  | stmt i hr he =>
    refine h.quiet (by rw [hr]; rfl) ?_ ?_ (by simp) (by simp)
    · intro rest w l e
      cases e
      rcases h.running i _ _ _ hr with h1 | h1
      · exact Or.inl (.stmt h1 he)
      · exact Or.inr (hdo.stmt _ _ _ _ _ _ _ _ h1 he)
    · intro _ j hj hh hkey
      exact hj (h.excl j i hh (by rw [hr]; rfl) hkey)
  | raise i hr he =>
    refine h.quiet (by rw [hr]; rfl) (by simp) (by simp [Phase.holds]) (by simp) ?_
    intro e e'
    cases e'
    rcases h.running i _ _ _ hr with h1 | h1
    · right
      rw [h1.exec]
      simp [Txn.exec, he, Client.finish]
    · exact Or.inl (hdo.raise _ _ _ _ _ _ _ h1 he)
  | reject i hr he =>
    refine h.quiet (by rw [hr]; rfl) (by simp) (by simp [Phase.holds]) (by simp) ?_
    intro e e'
    cases e'
    rcases h.running i _ _ _ hr with h1 | h1
    · right
      rw [h1.exec]
      simp [Txn.exec, he, Client.finish]
    · obtain ⟨e', h2, h3⟩ := hdo.reject _ _ _ _ h1
      rw [he] at h2
      cases h2
      exact Or.inl h3
  | crash i hr => exact h.quiet hr (by simp) (by simp [Phase.holds]) (by simp) (by simp)
  | commit i hr he =>
    rename_i w l
    have hal : (c i).alone s.db = .ok (w s.db, l) := by
      rcases h.running i _ _ _ hr with h1 | h1
      · rw [h1.exec]
        simp [Txn.exec, Client.finish, he]
      · obtain ⟨e', h2, -⟩ := hdo.reject _ _ _ _ h1
        rw [he] at h2
        cases h2
    have hni : i ∉ s.log := by
      intro hm
      obtain ⟨l, e⟩ := (h.logged i).1 hm
      rw [e] at hr
      cases hr
    refine ⟨.snoc h.serial hal, hk h.keeps hni hal, ?_, ?_, ?_, ?_, ?_, ?_⟩
    · intro j rest w' l' e
      by_cases hj : j = i
      · subst hj; rw [set_same] at e; cases e
      · rw [set_other _ _ hj] at e
        have hjl : j ∉ s.log := by
          intro hm
          obtain ⟨l, e'⟩ := (h.logged j).1 hm
          simp only at e
          rw [e'] at e
          cases e
        have hkey : (c j).key ≠ (c i).key := fun hkey => hj (h.excl j i (by simp only at e; rw [e]; rfl) (by rw [hr]; rfl) hkey)
        rcases h.running j _ _ _ e with h1 | h1
        · exact hst h.keeps hjl hni hj hkey hal h1
        · exact Or.inr (hdo.other _ _ _ _ _ _ _ _ _ h.keeps hjl hni hj hal h1)
    · intro j k hj hk' hkey
      have h1 : j ≠ i := by rintro rfl; rw [set_same] at hj; cases hj
      have h2 : k ≠ i := by rintro rfl; rw [set_same] at hk'; cases hk'
      rw [set_other _ _ h1] at hj
      rw [set_other _ _ h2] at hk'
      exact h.excl j k hj hk' hkey
    · exact List.nodup_append.2 ⟨h.nodup, by simp, by rintro a ha b hb rfl; rw [List.mem_singleton.1 hb] at ha; exact hni ha⟩
    · intro j
      by_cases hj : j = i
      · subst hj
        rw [set_same]
        simp [State.set]
      · rw [set_other _ _ hj]
        simp only [State.set, List.mem_append, List.mem_singleton, hj, or_false]
        exact h.logged j
    · intro j l' e
      by_cases hj : j = i
      · subst hj
        rw [set_same] at e
        cases e
        exact ⟨s.log, [], s.db, w s.db, rfl, h.serial, h.keeps, hal⟩
      · rw [set_other _ _ hj] at e
        obtain ⟨pre, post, db, db', h1, h2, h3⟩ := h.result j l' e
        exact ⟨pre, post ++ [i], db, db', by simp [State.set, h1], h2, h3⟩
    · intro j e' e
      by_cases hj : j = i
      · subst hj
        rw [set_same] at e
        cases e
      · rw [set_other _ _ hj] at e
        refine (h.raised j e' e).imp_right ?_
        rintro ⟨pre, db, h1, h2⟩
        exact ⟨pre, db, h1.trans (List.prefix_append _ _), h2⟩

theorem InvOr.reach (hst : StableOr c J D) (hdo : Doomed c J D E) (hk : Keeps c J) (hJ : J [] db₀) (hs : Reach c (.init db₀) s) :
    InvOr c J D E db₀ s := by
  induction hs with
  | refl => exact .init hJ
  | step _ hs ih => exact ih.step hst hdo hk hs

/-- The invariant with nobody doomed: every client that fails, fails as it would have at some moment of the serial run. -/
abbrev Inv (c : ι → Client σ ℓ) (J : List ι → σ → Prop) (db₀ : σ) (s : State ι σ ℓ) : Prop :=
  InvOr c J (fun _ _ _ _ _ => False) (fun _ => False) db₀ s

theorem Inv.reach (hst : Stable c J) (hk : Keeps c J) (hJ : J [] db₀) (hs : Reach c (.init db₀) s) : Inv c J db₀ s := by
  refine InvOr.reach ?_ ⟨?_, ?_, ?_, ?_⟩ hk hJ hs
  · intro log db db' i j l li rest w h1 h2 h3 h4 h5 h6 h7
    exact Or.inl (hst h1 h2 h3 h4 h5 h6 h7)
  all_goals intros; contradiction

omit [DecidableEq ι] in
/-- If all lock the same row there is nothing to upset. -/
theorem stable_of_key {k : Nat} (hc : ∀ i, (c i).key = k) : Stable c J := by
  intro _ _ _ i j _ _ _ _ _ _ _ _ hkey
  exact absurd ((hc i).trans (hc j).symm) hkey

/-- **Serialisability**: if all clients lock the same row, at every moment of every interleaving the committed table is what the
transactions that committed give one after the other, in the order they committed.  Every client that committed got the result it
gets there, and every client that failed, failed as it would have at some moment of that sequence. -/
theorem serial_of_key {k : Nat} (hc : ∀ i, (c i).key = k) (hs : Reach c (.init db₀) s) : Inv c (fun _ _ => True) db₀ s :=
  .reach (stable_of_key hc) (fun _ _ _ _ _ _ _ _ => trivial) trivial hs

omit [DecidableEq ι] in
theorem Serial.unique {log : List ι} {a b : σ} (ha : Serial c db₀ log a) (hb : Serial c db₀ log b) : a = b := by
  induction ha generalizing b with
  | nil =>
    generalize e : ([] : List ι) = l at hb
    cases hb with
    | nil => rfl
    | snoc => simp at e
  | @snoc log db db' i l _ h1 ih =>
    generalize e : log ++ [i] = l' at hb
    cases hb with
    | nil => simp at e
    | @snoc log' _ _ j _ h2 h3 =>
      obtain ⟨e1, e2⟩ := List.append_inj' e rfl
      subst e1
      obtain rfl : i = j := by simpa using e2
      rw [← ih h2, h1] at h3
      cases h3
      rfl

omit [DecidableEq ι] in
/-- What holds of every transaction holds, transitively, from every moment of the serial run to its end. -/
theorem Serial.since {R : σ → σ → Prop} (hrefl : ∀ a, R a a) (htrans : ∀ a b c, R a b → R b c → R a c) (hk : Keeps c J)
    (hR : ∀ log db db' i l, J log db → i ∉ log → (c i).alone db = .ok (db', l) → R db db') (hJ : J [] db₀) {log : List ι} {db : σ}
    (h : Serial c db₀ log db) (hn : log.Nodup) : J log db ∧ ∀ pre a, pre <+: log → Serial c db₀ pre a → R a db := by
  induction h with
  | nil =>
    refine ⟨hJ, fun pre a hp ha => ?_⟩
    rw [List.prefix_nil.1 hp] at ha
    rw [ha.unique .nil]
    exact hrefl _
  | @snoc log db db' i l h1 h2 ih =>
    obtain ⟨hn1, -, hd⟩ := List.nodup_append.1 hn
    have hi : i ∉ log := fun hm => hd i hm i (by simp) rfl
    obtain ⟨hj, hs⟩ := ih hn1
    refine ⟨hk hj hi h2, fun pre a hp ha => ?_⟩
    rcases List.prefix_concat_iff.1 hp with e | hp'
    · rw [e] at ha
      rw [ha.unique (.snoc h1 h2)]
      exact hrefl _
    · exact htrans _ _ _ (hs pre a hp' ha) (hR _ _ _ _ _ hj hi h2)

/-- how many steps a client has before it at most -/
def left (c : ι → Client σ ℓ) (s : State ι σ ℓ) (i : ι) : Nat :=
  match s.phase i with
  | .waiting => (c i).body.length + 2
  | .running rest .. => rest.length + 1
  | _ => 0

/-- **No deadlock**: as long as some client is not done, some client can go on, and not by dying. -/
theorem progress (s : State ι σ ℓ) {i : ι} (hi : (s.phase i).finished = false) :
    ∃ s', Step c s s' ∧ ∀ j, s'.phase j = .crashed → s.phase j = .crashed := by
  by_cases hrun : ∃ j, (s.phase j).holds = true
  · obtain ⟨j, hj⟩ := hrun
    cases e : s.phase j with
    | running rest w l =>
      have key : ∀ {s' : State ι σ ℓ} {p : Phase σ ℓ}, s'.phase = (s.set j p).phase → p ≠ .crashed → ∀ k, s'.phase k = .crashed → s.phase k = .crashed := by
        intro s' p e hp k hk
        rw [e] at hk
        by_cases hkj : k = j
        · subst hkj; rw [set_same] at hk; exact absurd hk hp
        · rwa [set_other _ _ hkj] at hk
      cases rest with
      | nil =>
        cases hch : (c j).check (w s.db) with
        | none => exact ⟨_, .commit j e hch, key (p := .committed l) rfl (by simp)⟩
        | some er => exact ⟨_, .reject j e hch, key rfl (by simp)⟩
      | cons st rest =>
        cases he : st (w s.db) l with
        | error er => exact ⟨_, .raise j e he, key rfl (by simp)⟩
        | ok r => exact ⟨_, .stmt j e (u := r.1) (l' := r.2) he, key rfl (by simp)⟩
    | _ => rw [e] at hj; cases hj
  · have hw : s.phase i = .waiting := by
      cases e : s.phase i with
      | waiting => rfl
      | running => exact absurd ⟨i, by rw [e]; rfl⟩ hrun
      | _ => rw [e] at hi; cases hi
    refine ⟨_, .lock i hw (fun j hj => absurd ⟨j, hj⟩ hrun), fun k hk => ?_⟩
    by_cases hki : k = i
    · subst hki; rw [set_same] at hk; cases hk
    · rwa [set_other _ _ hki] at hk

/-- Every step brings one client nearer to its end, and leaves the others where they are. -/
theorem step_left (h : Step c s s') : ∃ i, left c s' i < left c s i ∧ ∀ j, j ≠ i → left c s' j = left c s j := by
  have other : ∀ {i p} {t : State ι σ ℓ}, t.phase = s.phase → ∀ j, j ≠ i → left c (t.set i p) j = left c s j := by
    intro i p t ht j hj
    unfold left
    rw [set_other _ _ hj, ht]
  cases h with
  | lock i hw => exact ⟨i, by simp [left, set_same, hw], other rfl⟩
  | stmt i hr => exact ⟨i, by simp [left, set_same, hr], other rfl⟩
  | raise i hr => exact ⟨i, by simp [left, set_same, hr], other rfl⟩
  | reject i hr => exact ⟨i, by simp [left, set_same, hr], other rfl⟩
  | crash i hr =>
    refine ⟨i, ?_, other rfl⟩
    cases e : s.phase i <;> simp_all [left, set_same, Phase.finished]
  | commit i hr => exact ⟨i, by simp [left, set_same, hr], other rfl⟩

/-- With finitely many clients every run comes to an end: there is no infinite sequence of steps. -/
theorem wf_step [Fintype ι] (c : ι → Client σ ℓ) : WellFounded fun s' s : State ι σ ℓ => Step c s s' := by
  refine Subrelation.wf ?_ (measure fun s : State ι σ ℓ => ∑ i, left c s i).wf
  intro s' s h
  obtain ⟨i, hi, ho⟩ := step_left h
  refine Finset.sum_lt_sum (fun j _ => ?_) ⟨i, Finset.mem_univ i, hi⟩
  by_cases hj : j = i
  · rw [hj]; exact hi.le
  · exact (ho j hj).le

/-- From every state of finitely many clients a state where all are done is reached without anybody dying. -/
theorem exists_end [Fintype ι] (c : ι → Client σ ℓ) (s : State ι σ ℓ) :
    ∃ s', Reach c s s' ∧ (∀ i, (s'.phase i).finished = true) ∧ ∀ j, s'.phase j = .crashed → s.phase j = .crashed := by
  induction s using (wf_step c).induction with
  | _ s ih =>
    by_cases hall : ∀ i, (s.phase i).finished = true
    · exact ⟨s, .refl, hall, fun _ => id⟩
    · rw [not_forall] at hall
      obtain ⟨i, hi⟩ := hall
      obtain ⟨s', hs, hc⟩ := progress (c := c) s (i := i) (by simpa using hi)
      obtain ⟨t, ht, hf, hd⟩ := ih s' hs
      refine ⟨t, ?_, hf, fun j hj => hc j (hd j hj)⟩
      clear hf hd ih
      induction ht with
      | refl => exact .step .refl hs
      | step _ h2 ih => exact .step ih h2

/-! ### Running a schedule, for examples -/

/-- one step of client `i`; `js` are all the clients -/
def go (c : ι → Client σ ℓ) (js : List ι) (s : State ι σ ℓ) (i : ι) : Option (State ι σ ℓ) :=
  match s.phase i with
  | .waiting =>
    if js.all fun j => !((s.phase j).holds && (c j).key == (c i).key) then some (s.set i (.running (c i).body id (c i).start)) else none
  | .running [] w l =>
    match (c i).check (w s.db) with
    | some e => some (s.set i (.raised e))
    | none => some (State.set ⟨w s.db, s.phase, s.log ++ [i]⟩ i (.committed l))
  | .running (st :: rest) w l =>
    match st (w s.db) l with
    | .error e => some (s.set i (.raised e))
    | .ok (u, l) => some (s.set i (.running rest (u ∘ w) l))
  | _ => none

theorem go_sound {js : List ι} (hj : ∀ j, j ∈ js) {i : ι} (h : go c js s i = some s') : Step c s s' := by
  unfold go at h
  split at h
  · rename_i hw
    split at h
    · rename_i hall
      cases h
      refine .lock i hw fun j hh hk => ?_
      have := List.all_eq_true.1 hall j (hj j)
      simp [hh, hk] at this
    · cases h
  · rename_i w l hr
    split at h
    · rename_i he
      cases h
      exact .reject i hr he
    · rename_i he
      cases h
      exact .commit i hr he
  · rename_i st rest w l hr
    split at h
    · rename_i he
      cases h
      exact .raise i hr he
    · rename_i he
      cases h
      exact .stmt i hr he
  · cases h

/-- the steps of these clients, in this order -/
def runs (c : ι → Client σ ℓ) (js : List ι) (s : State ι σ ℓ) : List ι → Option (State ι σ ℓ)
  | [] => some s
  | i :: is => (go c js s i).bind fun s => runs c js s is

theorem runs_sound {js : List ι} (hj : ∀ j, j ∈ js) {is : List ι} (h₀ : Reach c (.init db₀) s) (h : runs c js s is = some s') :
    Reach c (.init db₀) s' := by
  induction is generalizing s with
  | nil => cases h; exact h₀
  | cons i is ih =>
    unfold runs at h
    obtain ⟨t, h1, h2⟩ := Option.bind_eq_some_iff.1 h
    exact ih (.step h₀ (go_sound hj h1)) h2

/-- the exception a client got -/
def Phase.error? : Phase σ ℓ → Option Err
  | .raised e => some e
  | _ => none

theorem Phase.error?_eq {p : Phase σ ℓ} {e : Err} (h : p.error? = some e) : p = .raised e := by
  cases p <;> simp_all [Phase.error?]

/-- a state reached by a schedule, with what is to be shown of it -/
theorem exists_run {js : List ι} (hj : ∀ j, j ∈ js) (is : List ι) {α : Type} (f : State ι σ ℓ → α) {a : α}
    (h : (runs c js (.init db₀) is).map f = some a) : ∃ s, Reach c (.init db₀) s ∧ f s = a := by
  obtain ⟨s, h1, h2⟩ := Option.map_eq_some_iff.1 h
  exact ⟨s, runs_sound hj .refl h1, h2⟩

end Verif.Txn
