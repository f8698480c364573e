/-
Model of concurrent transactions with a row lock, as `add_child` uses it (mp_tree.py:400, ns_tree.py:148, ltree/__init__.py:204).

Any number of clients, each with one transaction (`@transaction.atomic`).  The first statement takes the lock of one row
(`select_for_update`), the lock is held until the end of the transaction, and a client waits while another holds the lock of
the same row.  Between two statements of a client any other client may go on.  Isolation is READ COMMITTED, the default of
PostgreSQL: a statement sees what was committed before it, and the client's own changes.
-/
import Verif.Common

namespace Verif.Txn

variable {ι σ ℓ : Type}

/-- A statement: from the table it sees and the client's variables, an exception, or a change of the table and new variables. -/
abbrev Stmt (σ ℓ : Type) := σ → ℓ → Except Err ((σ → σ) × ℓ)

/-- the statements one after the other with nobody else around -/
def exec : List (Stmt σ ℓ) → σ → ℓ → Except Err (σ × ℓ)
  | [], db, l => .ok (db, l)
  | st :: rest, db, l =>
    match st db l with
    | .error e => .error e
    | .ok (u, l) => exec rest (u db) l

/-- A client: the row it locks, its variables at the start, the statements after taking the lock, and the constraints of the table.
A unique index makes a second INSERT of a value wait for the commit of the first and then raise, and a deferred one raises when
committing; both come to the same: the transaction does not get past the commit of the other, and what is checked is the table it would
leave. -/
structure Client (σ ℓ : Type) where
  key : Nat
  start : ℓ
  body : List (Stmt σ ℓ)
  check : σ → Option Err

/-- the end of a transaction: the constraints hold, or it is rolled back -/
def Client.finish (c : Client σ ℓ) : Except Err (σ × ℓ) → Except Err (σ × ℓ)
  | .error e => .error e
  | .ok (db, l) =>
    match c.check db with
    | some e => .error e
    | none => .ok (db, l)

/-- the client's transaction, alone -/
def Client.alone (c : Client σ ℓ) (db : σ) : Except Err (σ × ℓ) := c.finish (exec c.body db c.start)

/-- Where a client is. -/
inductive Phase (σ ℓ : Type) where
  /-- not begun, or waiting for the lock -/
  | waiting
  /-- holds the lock; the statements to come, the changes not committed yet, the variables -/
  | running (rest : List (Stmt σ ℓ)) (pending : σ → σ) (vars : ℓ)
  | committed (vars : ℓ)
  /-- a statement or the commit raised, the transaction was rolled back -/
  | raised (e : Err)
  /-- the client died, the transaction was rolled back -/
  | crashed

def Phase.holds : Phase σ ℓ → Bool
  | .running .. => true
  | _ => false

def Phase.finished : Phase σ ℓ → Bool
  | .running .. => false
  | .waiting => false
  | _ => true

/-- The committed table, the clients, and (for the statements only) who committed, in order. -/
structure State (ι σ ℓ : Type) where
  db : σ
  phase : ι → Phase σ ℓ
  log : List ι

def State.init (db : σ) : State ι σ ℓ := ⟨db, fun _ => .waiting, []⟩

variable [DecidableEq ι]

/-- client `i` is now at `p` -/
def State.set (s : State ι σ ℓ) (i : ι) (p : Phase σ ℓ) : State ι σ ℓ := { s with phase := fun j => if j = i then p else s.phase j }

/-- One step of one client. -/
inductive Step (c : ι → Client σ ℓ) : State ι σ ℓ → State ι σ ℓ → Prop where
  | lock {s : State ι σ ℓ} (i : ι) (hw : s.phase i = .waiting) (hfree : ∀ j, (s.phase j).holds = true → (c j).key ≠ (c i).key) :
      Step c s (s.set i (.running (c i).body id (c i).start))
  | stmt {s : State ι σ ℓ} (i : ι) {st : Stmt σ ℓ} {rest : List (Stmt σ ℓ)} {w u : σ → σ} {l l' : ℓ}
      (hr : s.phase i = .running (st :: rest) w l) (he : st (w s.db) l = .ok (u, l')) :
      Step c s (s.set i (.running rest (u ∘ w) l'))
  | raise {s : State ι σ ℓ} (i : ι) {st : Stmt σ ℓ} {rest : List (Stmt σ ℓ)} {w : σ → σ} {l : ℓ} {e : Err}
      (hr : s.phase i = .running (st :: rest) w l) (he : st (w s.db) l = .error e) : Step c s (s.set i (.raised e))
  | crash {s : State ι σ ℓ} (i : ι) (hr : (s.phase i).finished = false) : Step c s (s.set i .crashed)
  | reject {s : State ι σ ℓ} (i : ι) {w : σ → σ} {l : ℓ} {e : Err} (hr : s.phase i = .running [] w l)
      (he : (c i).check (w s.db) = some e) : Step c s (s.set i (.raised e))
  | commit {s : State ι σ ℓ} (i : ι) {w : σ → σ} {l : ℓ} (hr : s.phase i = .running [] w l) (he : (c i).check (w s.db) = none) :
      Step c s (State.set ⟨w s.db, s.phase, s.log ++ [i]⟩ i (.committed l))

/-- what can be reached in any number of steps -/
inductive Reach (c : ι → Client σ ℓ) (s₀ : State ι σ ℓ) : State ι σ ℓ → Prop where
  | refl : Reach c s₀ s₀
  | step {s s' : State ι σ ℓ} : Reach c s₀ s → Step c s s' → Reach c s₀ s'

/-- The transactions of `log` one after the other, each alone, lead from `db₀` to `db`. -/
inductive Serial (c : ι → Client σ ℓ) (db₀ : σ) : List ι → σ → Prop where
  | nil : Serial c db₀ [] db₀
  | snoc {log : List ι} {db db' : σ} {i : ι} {l : ℓ} : Serial c db₀ log db → (c i).alone db = .ok (db', l) → Serial c db₀ (log ++ [i]) db'

end Verif.Txn
