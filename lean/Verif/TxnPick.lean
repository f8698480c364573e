/-
Concurrent additions without a lock: each client picks a place, the same one every client would pick, and then inserts its row there.
A unique index lets only one of them have it.
-/
import Verif.TxnLemmas

namespace Verif.Txn

variable {ι σ P : Type}

/-- How `add_root` works: `pick` reads a free place, `put` inserts a row there, `check` is the unique index (raised by the INSERT
itself, or when committing if it is `deferred`). -/
structure Picker (ι σ P : Type) where
  pick : σ → Except Err P
  put : ι → P → σ → σ
  check : σ → Option Err
  deferred : Bool
  start : P
  key : ι → Nat

variable (k : Picker ι σ P)

/-- the query for the place -/
def Picker.read : Stmt σ P := fun db _ =>
  match k.pick db with
  | .error e => .error e
  | .ok p => .ok (id, p)

/-- the INSERT -/
def Picker.insert (i : ι) : Stmt σ P := fun db p =>
  match (if k.deferred then none else k.check (k.put i p db)) with
  | some e => .error e
  | none => .ok (k.put i p, p)

/-- the client; the lock is one nobody else asks for -/
def Picker.client (i : ι) : Client σ P where
  key := k.key i
  start := k.start
  body := [k.read, k.insert i]
  check := k.check

variable {k}

/-- alone: pick, put, and the check -/
theorem Picker.alone (i : ι) (db : σ) : (k.client i).alone db =
    match k.pick db with
    | .error e => .error e
    | .ok p =>
      match k.check (k.put i p db) with
      | some e => .error e
      | none => .ok (k.put i p db, p) := by
  simp only [Client.alone, Picker.client, exec, Picker.read]
  cases k.pick db with
  | error e => rfl
  | ok p =>
    simp only [id, Picker.insert]
    by_cases hd : k.deferred = true
    · simp only [hd, if_true]
      rfl
    · simp only [hd]
      cases hc : k.check (k.put i p db) with
      | some e => simp [Client.finish]
      | none => simp [Client.finish, hc]

theorem Picker.reached {i : ι} {db : σ} {rest : List (Stmt σ P)} {w : σ → σ} {l : P} (h : Reached (k.client i) db rest w l) :
    (rest = [k.read, k.insert i] ∧ w = id ∧ l = k.start) ∨
    (k.pick db = .ok l ∧ ((rest = [k.insert i] ∧ w = id) ∨ (rest = [] ∧ w = k.put i l))) := by
  induction h with
  | start => exact Or.inl ⟨rfl, rfl, rfl⟩
  | @stmt st rest w u l l' _ he ih =>
    right
    rcases ih with ⟨e, rfl, rfl⟩ | ⟨hp, ⟨e, rfl⟩ | ⟨e, rfl⟩⟩
    · cases e
      unfold Picker.read at he
      simp only [id] at he
      cases hp : k.pick db with
      | error e => simp [hp] at he
      | ok p =>
        simp only [hp] at he
        cases he
        exact ⟨rfl, Or.inl ⟨rfl, rfl⟩⟩
    · cases e
      unfold Picker.insert at he
      simp only [id] at he
      generalize (if k.deferred = true then none else k.check (k.put i l db)) = o at he
      cases o with
      | some e => cases he
      | none =>
        cases he
        exact ⟨hp, Or.inr ⟨rfl, rfl⟩⟩
    · cases e

/-- a client whose place somebody else has got -/
def Picker.Late (k : Picker ι σ P) (taken : P → σ → Prop) (i : ι) (db : σ) (rest : List (Stmt σ P)) (w : σ → σ) (l : P) : Prop :=
  taken l db ∧ ((rest = [k.insert i] ∧ w = id) ∨ (rest = [] ∧ w = k.put i l))

variable [DecidableEq ι]

theorem Picker.reach {J : List ι → σ → Prop} {taken : P → σ → Prop} (hk : Keeps k.client J)
    (hput : ∀ j p db, taken p (k.put j p db)) (hkeep : ∀ j p q db, taken p db → taken p (k.put j q db))
    (hcheck : ∀ i p db, taken p db → k.check (k.put i p db) = some .integrity) {db₀ : σ} (hJ : J [] db₀) {s : State ι σ P}
    (hs : Reach k.client (.init db₀) s) : InvOr k.client J (k.Late taken) (· = .integrity) db₀ s := by
  have hal : ∀ {j : ι} {db db' : σ} {l : P}, (k.client j).alone db = .ok (db', l) → k.pick db = .ok l ∧ db' = k.put j l db := by
    intro j db db' l e
    rw [Picker.alone] at e
    cases hp : k.pick db with
    | error e' => simp [hp] at e
    | ok p =>
      simp only [hp] at e
      cases hc : k.check (k.put j p db) with
      | some e' => simp [hc] at e
      | none =>
        simp only [hc] at e
        cases e
        exact ⟨rfl, rfl⟩
  refine InvOr.reach ?_ ⟨?_, ?_, ?_, ?_⟩ hk hJ hs
  · intro log db db' i j l li rest w _ _ _ _ _ e hr
    obtain ⟨h1, rfl⟩ := hal e
    rcases Picker.reached hr with ⟨rfl, rfl, rfl⟩ | ⟨hp, hcase⟩
    · exact Or.inl .start
    · right
      rw [h1] at hp
      cases hp
      exact ⟨hput _ _ _, hcase⟩
  · rintro i db st rest w l u l' ⟨ht, ⟨e, rfl⟩ | ⟨e, rfl⟩⟩ he
    · cases e
      unfold Picker.insert at he
      simp only [id] at he
      generalize (if k.deferred = true then none else k.check (k.put i l db)) = o at he
      cases o with
      | some e => cases he
      | none =>
        cases he
        exact ⟨ht, Or.inr ⟨rfl, rfl⟩⟩
    · cases e
  · rintro i db st rest w l e' ⟨ht, ⟨e, rfl⟩ | ⟨e, rfl⟩⟩ he
    · cases e
      unfold Picker.insert at he
      simp only [id, hcheck i l db ht] at he
      by_cases hd : k.deferred = true
      · simp [hd] at he
      · simp only [hd] at he
        cases he
        rfl
    · cases e
  · rintro i db w l ⟨ht, ⟨e, rfl⟩ | ⟨-, rfl⟩⟩
    · cases e
    · exact ⟨_, hcheck i l db ht, rfl⟩
  · rintro log db db' i j l rest w li _ _ _ _ e ⟨ht, hcase⟩
    obtain ⟨-, rfl⟩ := hal e
    exact ⟨hkeep _ _ _ _ ht, hcase⟩

end Verif.Txn
