/-
Concurrent transactions that work on different parts of the table, without any lock, are serialisable.
-/
import Verif.TxnLemmas

namespace Verif.Txn

variable {ι σ ℓ τ : Type}

/-- What a statement does depends on its part of the table only (`V` is what there is to see of the part), it changes its part in a way that
depends on the part only, and the other parts (`W`) not at all.  `P` is what the statement can rely on when the client's variables are
`l`, and has to leave to the next one. -/
structure Local (P : ℓ → σ → Prop) (V : σ → τ) (W : (σ → τ) → Prop) (st : Stmt σ ℓ) : Prop where
  reads : ∀ a b l, P l a → P l b → V a = V b → st a l = st b l
  acts : ∀ a l u l', P l a → st a l = .ok (u, l') → ∀ b, P l b → V b = V a → P l' (u b) ∧ V (u b) = V (u a) ∧ ∀ X, W X → X (u b) = X b

/-- the client's statements are local -/
def Client.Local (c : Client σ ℓ) (P : ℓ → σ → Prop) (V : σ → τ) (W : (σ → τ) → Prop) : Prop := ∀ st ∈ c.body, Txn.Local P V W st

theorem Reached.sub {c : Client σ ℓ} {db : σ} {rest : List (Stmt σ ℓ)} {w : σ → σ} {l : ℓ} (h : Reached c db rest w l) :
    ∀ st ∈ rest, st ∈ c.body := by
  induction h with
  | start => exact fun _ h => h
  | stmt _ _ ih => exact fun st hs => ih st (List.mem_cons_of_mem _ hs)

theorem Reached.moved {c : Client σ ℓ} {P : ℓ → σ → Prop} {V : σ → τ} {W : (σ → τ) → Prop} (hc : c.Local P V W) {a b : σ} (hab : V a = V b)
    (ha : P c.start a) (hb : P c.start b) {rest : List (Stmt σ ℓ)} {w : σ → σ} {l : ℓ} (h : Reached c a rest w l) :
    Reached c b rest w l ∧ V (w a) = V (w b) ∧ P l (w a) ∧ P l (w b) := by
  induction h with
  | start => exact ⟨.start, hab, ha, hb⟩
  | @stmt st rest w u l l' h1 he ih =>
    have hl := hc st (h1.sub st (by simp))
    obtain ⟨i1, i2, i3, i4⟩ := ih
    have h2 := hl.acts _ _ _ _ i3 he _ i4 i2.symm
    exact ⟨.stmt i1 (by rw [← hl.reads _ _ _ i3 i4 i2]; exact he), h2.2.1.symm, (hl.acts _ _ _ _ i3 he _ i3 rfl).1, h2.1⟩

theorem exec_frame {P : ℓ → σ → Prop} {V : σ → τ} {W : (σ → τ) → Prop} : ∀ (body : List (Stmt σ ℓ)), (∀ st ∈ body, Local P V W st) →
    ∀ {a b : σ} {l l' : ℓ}, P l a → exec body a l = .ok (b, l') → P l' b ∧ ∀ X, W X → X b = X a
  | [], _, a, b, l, l', ha, e => by cases e; exact ⟨ha, fun _ _ => rfl⟩
  | st :: body, h, a, b, l, l', ha, e => by
    unfold exec at e
    split at e
    · cases e
    · rename_i u l'' he
      have h1 := (h st (by simp)).acts _ _ _ _ ha he _ ha rfl
      have h2 := exec_frame body (fun st hs => h st (List.mem_cons_of_mem _ hs)) h1.1 e
      exact ⟨h2.1, fun X hX => (h2.2 X hX).trans (h1.2.2 X hX)⟩

/-- the transaction alone does not change the other parts -/
theorem Client.alone_frame {c : Client σ ℓ} {P : ℓ → σ → Prop} {V : σ → τ} {W : (σ → τ) → Prop} (hc : c.Local P V W) {a b : σ} {l : ℓ}
    (ha : P c.start a) (e : c.alone a = .ok (b, l)) : P l b ∧ ∀ X, W X → X b = X a := by
  unfold Client.alone Client.finish at e
  split at e
  · cases e
  · rename_i db l' he
    split at e
    · cases e
    · cases e
      exact exec_frame c.body hc ha he

/-- the exceptions depend on the part only -/
theorem exec_error {P : ℓ → σ → Prop} {V : σ → τ} {W : (σ → τ) → Prop} : ∀ (body : List (Stmt σ ℓ)), (∀ st ∈ body, Local P V W st) →
    ∀ {a b : σ} {l : ℓ} {e : Err}, P l a → P l b → V a = V b → exec body a l = .error e → exec body b l = .error e
  | [], _, a, b, l, e, _, _, _, he => by cases he
  | st :: body, h, a, b, l, e, ha, hb, hab, he => by
    have hl := h st (by simp)
    unfold exec at he ⊢
    rw [← hl.reads a b l ha hb hab]
    cases hs : st a l with
    | error e' => rw [hs] at he; exact he
    | ok r =>
      rw [hs] at he
      have h2 := hl.acts _ _ _ _ ha hs _ hb hab.symm
      exact exec_error body (fun st hs => h st (List.mem_cons_of_mem _ hs)) (hl.acts _ _ _ _ ha hs _ ha rfl).1 h2.1 h2.2.1.symm he

/-- ... and so do the variables and the part at the end -/
theorem exec_ok {P : ℓ → σ → Prop} {V : σ → τ} {W : (σ → τ) → Prop} : ∀ (body : List (Stmt σ ℓ)), (∀ st ∈ body, Local P V W st) →
    ∀ {a a' b : σ} {l l' : ℓ}, P l a → P l b → V a = V b → exec body a l = .ok (a', l') →
      ∃ b', exec body b l = .ok (b', l') ∧ P l' a' ∧ P l' b' ∧ V a' = V b'
  | [], _, a, a', b, l, l', ha, hb, hab, he => by cases he; exact ⟨b, rfl, ha, hb, hab⟩
  | st :: body, h, a, a', b, l, l', ha, hb, hab, he => by
    have hl := h st (by simp)
    unfold exec at he ⊢
    rw [← hl.reads a b l ha hb hab]
    cases hs : st a l with
    | error e' => rw [hs] at he; cases he
    | ok r =>
      rw [hs] at he
      have h2 := hl.acts _ _ _ _ ha hs _ hb hab.symm
      exact exec_ok body (fun st hs => h st (List.mem_cons_of_mem _ hs)) (hl.acts _ _ _ _ ha hs _ ha rfl).1 h2.1 h2.2.1.symm he

/-- A transaction ends as it would on any table with the same part, if the deferred constraints do. -/
theorem Client.alone_moved {c : Client σ ℓ} {P : ℓ → σ → Prop} {V : σ → τ} {W : (σ → τ) → Prop} (hc : c.Local P V W)
    (hn : ∀ l a b, P l a → P l b → V a = V b → c.check a = c.check b) {a b : σ} (ha : P c.start a) (hb : P c.start b) (hab : V a = V b) :
    (c.alone a).map Prod.snd = (c.alone b).map Prod.snd := by
  unfold Client.alone Client.finish
  cases he : exec c.body a c.start with
  | error e => rw [exec_error c.body hc ha hb hab he]
  | ok r =>
    obtain ⟨b', e', h1, h2, h3⟩ := exec_ok c.body hc ha hb hab he
    simp only [e', hn _ _ _ h1 h2 h3]
    cases c.check b' <;> rfl

variable {c : ι → Client σ ℓ} {P : ι → ℓ → σ → Prop} {V : ι → σ → τ} {J : List ι → σ → Prop}

/-- **Different parts**: if every client's statements are local to a part of the table, and every client has a part of its own, commits of
others do not upset what a client has done. -/
theorem stable_of_parts (hc : ∀ i, (c i).Local (P i) (V i) (fun X => ∃ j, j ≠ i ∧ X = V j)) (hk : Keeps c J)
    (hP : ∀ log db i, J log db → i ∉ log → P i (c i).start db) : Stable c J := by
  intro log db db' i j l li rest w hJ hi hj hij _ ha hr
  have h1 := Client.alone_frame (hc j) (hP _ _ _ hJ hj) ha
  exact (hr.moved (hc i) (h1.2 _ ⟨i, hij, rfl⟩).symm (hP _ _ _ hJ hi) (hP _ _ _ (hk hJ hj ha) (by simp [hi, hij]))).1

/-- ... and at every moment of every interleaving the committed table is what the transactions that committed give one after the other, in the
order they committed. -/
theorem serial_of_parts [DecidableEq ι] (hc : ∀ i, (c i).Local (P i) (V i) (fun X => ∃ j, j ≠ i ∧ X = V j)) (hk : Keeps c J)
    (hP : ∀ log db i, J log db → i ∉ log → P i (c i).start db) {db₀ : σ} (hJ : J [] db₀) {s : State ι σ ℓ} (hs : Reach c (.init db₀) s) :
    Inv c J db₀ s := .reach (stable_of_parts hc hk hP) hk hJ hs

/-- What holds of the committed table (`G`) and of the running clients (`Q`: the statements to come, the variables, the changes not committed
yet), if every statement and every commit keeps it. -/
theorem reach_progress [DecidableEq ι] {c : ι → Client σ ℓ} {G : List ι → σ → Prop} {Q : ι → List (Stmt σ ℓ) → ℓ → (σ → σ) → Prop} {db₀ : σ}
    (h0 : G [] db₀) (hb : ∀ i, Q i (c i).body (c i).start id)
    (hst : ∀ log db i st rest l w u l', G log db → i ∉ log → Q i (st :: rest) l w → st (w db) l = .ok (u, l') → Q i rest l' (u ∘ w))
    (hco : ∀ log db i l w, G log db → i ∉ log → Q i [] l w → (c i).check (w db) = none → G (log ++ [i]) (w db))
    {s : State ι σ ℓ} (hs : Reach c (.init db₀) s) :
    G s.log s.db ∧ (∀ i rest w l, s.phase i = .running rest w l → Q i rest l w) ∧ s.log.Nodup ∧ ∀ i, i ∈ s.log ↔ ∃ l, s.phase i = .committed l := by
  induction hs with
  | refl => exact ⟨h0, by simp [State.init], by simp [State.init], by simp [State.init]⟩
  | @step s s' _ hstep ih =>
    obtain ⟨i1, i2, i3, i4⟩ := ih
    have quiet : ∀ (i : ι) (p : Phase σ ℓ), (s.phase i).finished = false → (∀ rest w l, p = .running rest w l → Q i rest l w) → (∀ l, p ≠ .committed l) →
        G (s.set i p).log (s.set i p).db ∧ (∀ j rest w l, (s.set i p).phase j = .running rest w l → Q j rest l w) ∧ (s.set i p).log.Nodup ∧
          ∀ j, j ∈ (s.set i p).log ↔ ∃ l, (s.set i p).phase j = .committed l := by
      intro i p hf hp hn
      refine ⟨i1, fun j rest w l e => ?_, i3, fun j => ?_⟩
      · by_cases hj : j = i
        · subst hj; rw [set_same] at e; exact hp _ _ _ e
        · rw [set_other _ _ hj] at e; exact i2 j _ _ _ e
      · by_cases hj : j = i
        · subst hj
          rw [set_same]
          refine ⟨fun hm => ?_, fun ⟨l, e⟩ => absurd e (hn l)⟩
          obtain ⟨l, e⟩ := (i4 j).1 hm
          rw [e] at hf
          cases hf
        · rw [set_other _ _ hj]; exact i4 j
    have fresh : ∀ {i rest w l}, s.phase i = .running rest w l → i ∉ s.log := by
      intro i rest w l e hm
      obtain ⟨l', e'⟩ := (i4 i).1 hm
      rw [e] at e'
      cases e'
    cases hstep with
    | lock i hw hfree =>
      refine quiet i _ (by rw [hw]; rfl) (fun rest w l e => ?_) (fun l => nofun)
      cases e
      exact hb i
    | stmt i hr he =>
      refine quiet i _ (by rw [hr]; rfl) (fun rest w l e => ?_) (fun l => nofun)
      cases e
      exact hst _ _ i _ _ _ _ _ _ i1 (fresh hr) (i2 _ _ _ _ hr) he
    | raise i hr he => exact quiet i _ (by rw [hr]; rfl) (fun rest w l => nofun) (fun l => nofun)
    | crash i hr => exact quiet i _ hr (fun rest w l => nofun) (fun l => nofun)
    | reject i hr he => exact quiet i _ (by rw [hr]; rfl) (fun rest w l => nofun) (fun l => nofun)
    | @commit i w l hr he =>
      have hni := fresh hr
      refine ⟨hco _ _ i l w i1 hni (i2 _ _ _ _ hr) he, fun j rest w' l' e => ?_, ?_, fun j => ?_⟩
      · by_cases hj : j = i
        · subst hj; rw [set_same] at e; cases e
        · rw [set_other _ _ hj] at e; exact i2 j _ _ _ e
      · show (s.log ++ [i]).Nodup
        rw [List.nodup_append]
        exact ⟨i3, by simp, fun a ha b hb' => by rw [List.mem_singleton.1 hb']; exact fun e => hni (e ▸ ha)⟩
      · show j ∈ s.log ++ [i] ↔ _
        by_cases hj : j = i
        · subst hj; rw [set_same]; simp
        · rw [set_other _ _ hj, List.mem_append, List.mem_singleton, i4 j]
          exact ⟨fun h => h.resolve_right hj, Or.inl⟩

end Verif.Txn
