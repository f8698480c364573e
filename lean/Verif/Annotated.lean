/-
`get_annotated_list_qs`, shared by all backends.
-/
import Verif.SpecRender
import Verif.DFS
import Verif.SpecNav

namespace Verif

/-! ### The model -/

/-- one `info` dictionary -/
structure Info where
  opens : Bool
  close : List Nat
  level : Int
deriving DecidableEq, Repr

/-- `range(0, n)` -/
def pyRange (n : Int) : List Nat := List.range n.toNat

/-- `info["close"] = …` on the dictionary appended last (models.py:406, 416); before the loop `info` is a dictionary that is in
no result -/
def setClose {α : Type} (result : List (α × Info)) (close : List Nat) : List (α × Info) :=
  match result.getLast? with
  | none => []
  | some (n, i) => result.dropLast ++ [(n, { i with close := close })]

/-- models.py:400-414, the loop; `prev` is `prev_depth` and `start` is `start_depth` -/
def annotateLoop {α : Type} (start prev : Option Int) (result : List (α × Info)) :
    List (α × Int) → List (α × Info) × Option Int × Option Int
  | [] => (result, start, prev)
  | (node, depth) :: qs =>
    let startDepth := start.getD depth
    let opens := decide (depth ≠ 0) && (match prev with | none => true | some p => decide (p < depth))
    let result := match prev with
      | none => result
      | some p => if depth < p then setClose result (pyRange (p - depth)) else result
    annotateLoop (some startDepth) (some depth) (result ++ [(node, ⟨opens, [], depth - startDepth⟩)]) qs

/-- models.py:389-417 `get_annotated_list_qs` of nodes with what `get_depth` returns -/
def annotate {α : Type} (qs : List (α × Int)) : List (α × Info) :=
  match annotateLoop none none [] qs with
  | (result, some s, some p) => if s ≠ 0 ∧ 0 < s then setClose result (pyRange (p - s + 1)) else result
  | (result, _, _) => result

/-! ### One entry at a time -/

variable {α : Type}

/-- the first depth of a list, or else of what follows it -/
def headDepth (nxt : Int) : List (α × Int) → Int
  | [] => nxt
  | e :: _ => e.2

/-- the opening mark -/
def opensAt (d : Int) : Option Int → Bool
  | none => true
  | some p => decide (p < d)

/-- the marks, entry by entry: `nxt` is the depth of what follows the list -/
def marks (start nxt : Int) : Option Int → List (α × Int) → List (α × Info)
  | _, [] => []
  | prev, (n, d) :: l =>
    (n, ⟨opensAt d prev, pyRange (d - headDepth nxt l), d - start⟩) ::
      marks start nxt (some d) l

theorem pyRange_nonpos {n : Int} (h : n ≤ 0) : pyRange n = [] := by
  unfold pyRange
  rw [Int.toNat_of_nonpos h]; rfl

theorem setClose_append (res : List (α × Info)) (n : α) (i : Info) (c : List Nat) :
    setClose (res ++ [(n, i)]) c = res ++ [(n, { i with close := c })] := by
  unfold setClose
  rw [List.getLast?_append_cons]
  simp

theorem annotateLoop_eq (start : Int) : ∀ (l : List (α × Int)) (res : List (α × Info)) (n : α) (i : Info) (p : Int),
    (∀ e ∈ l, e.2 ≠ 0) → i.close = [] →
    ∃ res' n' i' p', annotateLoop (some start) (some p) (res ++ [(n, i)]) l = (res' ++ [(n', i')], some start, some p') ∧ i'.close = [] ∧
      ∀ nxt, res' ++ [(n', { i' with close := pyRange (p' - nxt) })] =
        res ++ [(n, { i with close := pyRange (p - headDepth nxt l) })] ++ marks start nxt (some p) l := by
  intro l
  induction l with
  | nil =>
    intro res n i p _ hi
    exact ⟨res, n, i, p, rfl, hi, fun nxt => by simp [marks, headDepth]⟩
  | cons e l ih =>
    obtain ⟨m, d⟩ := e
    intro res n i p hd hi
    have hd0 : d ≠ 0 := hd (m, d) (by simp)
    have hclose : (if d < p then setClose (res ++ [(n, i)]) (pyRange (p - d)) else res ++ [(n, i)]) =
        res ++ [(n, { i with close := pyRange (p - d) })] := by
      split
      · rw [setClose_append]
      · rename_i hlt
        rw [pyRange_nonpos (by omega)]
        congr 3
        cases i; simp_all
    have hstep : annotateLoop (some start) (some p) (res ++ [(n, i)]) ((m, d) :: l) =
        annotateLoop (some start) (some d) ((res ++ [(n, { i with close := pyRange (p - d) })]) ++ [(m, ⟨decide (p < d), [], d - start⟩)]) l := by
      simp only [annotateLoop, Option.getD_some, hclose]
      rw [decide_eq_true hd0, Bool.true_and]
    obtain ⟨res', n', i', p', h1, h2, h3⟩ := ih (res ++ [(n, { i with close := pyRange (p - d) })]) m ⟨decide (p < d), [], d - start⟩ d
      (fun e he => hd e (List.mem_cons_of_mem _ he)) rfl
    refine ⟨res', n', i', p', by rw [hstep, h1], h2, ?_⟩
    intro nxt
    rw [h3 nxt]
    simp only [marks, headDepth, opensAt, List.append_assoc, List.cons_append, List.nil_append]

/-- `get_annotated_list_qs` entry by entry, for positive depths -/
theorem annotate_eq {n : α} {d : Int} {l : List (α × Int)} (hd : ∀ e ∈ (n, d) :: l, e.2 ≠ 0) (hs : 0 < d) :
    annotate ((n, d) :: l) = marks d (d - 1) none ((n, d) :: l) := by
  obtain ⟨res', n', i', p', h1, h2, h3⟩ := annotateLoop_eq d l [] n ⟨true, [], 0⟩ d (fun e he => hd e (List.mem_cons_of_mem _ he)) rfl
  have hstep : annotateLoop none none [] ((n, d) :: l) = annotateLoop (some d) (some d) ([] ++ [(n, ⟨true, [], 0⟩)]) l := by
    have hd0 : d ≠ 0 := hd (n, d) (by simp)
    simp [annotateLoop, hd0]
  unfold annotate
  rw [hstep, h1]
  simp only
  rw [if_pos ⟨by omega, hs⟩, setClose_append]
  have := h3 (d - 1)
  rw [show p' - d + 1 = p' - (d - 1) by omega, this]
  simp [marks, opensAt]

/-! ### What the template prints -/

/-- an annotated list of keys as the template sees it -/
def shown (A : List (Nat × Info)) : List (Nat × Bool × List Nat × Int) := A.map (fun e => (e.1, e.2.opens, e.2.close, e.2.level))

/-- closing marks -/
def closes (n : Int) : List Tok := (pyRange n).flatMap (fun _ => [.liEnd, .ulEnd])

theorem closes_nonpos {n : Int} (h : n ≤ 0) : closes n = [] := by
  unfold closes; rw [pyRange_nonpos h]; rfl

theorem closes_succ {n : Int} (h : 0 < n) : closes n = [.liEnd, .ulEnd] ++ closes (n - 1) := by
  unfold closes pyRange
  obtain ⟨m, hm⟩ : ∃ m : Nat, n.toNat = m + 1 := ⟨n.toNat - 1, by omega⟩
  rw [hm, show (n - 1).toNat = m by omega, List.range_succ_eq_map, List.flatMap_cons, List.flatMap_map]

/-- the opening mark of a node of depth `d'` after one of depth `d` -/
def mark (d d' : Int) : List Tok := if d < d' then [.ul, .li] else [.liEnd, .li]

/-- what the template prints of a listing after the opening mark of its first node -/
def body (nxt : Int) : List (Nat × Int) → List Tok
  | [] => []
  | [(k, d)] => .item k :: closes (d - nxt)
  | (k, d) :: (k', d') :: l =>
    .item k :: (closes (d - d') ++ (mark d d' ++ body nxt ((k', d') :: l)))

theorem template_marks (start nxt : Int) : ∀ (l : List (Nat × Int)) (k : Nat) (d : Int) (prev : Option Int),
    template (shown (marks start nxt prev ((k, d) :: l))) =
      (if opensAt d prev = true then [.ul, .li] else [.liEnd, .li]) ++ body nxt ((k, d) :: l) := by
  intro l
  induction l with
  | nil =>
    intro k d prev
    simp only [marks, shown, List.map_cons, List.map_nil, template, body, closes, headDepth, List.append_nil, List.append_assoc, List.singleton_append]
  | cons e l ih =>
    obtain ⟨k', d'⟩ := e
    intro k d prev
    have := ih k' d' (some d)
    simp only [opensAt, decide_eq_true_eq] at this
    rw [show (if d < d' then [Tok.ul, Tok.li] else [Tok.liEnd, Tok.li]) = mark d d' from rfl] at this
    rw [marks]
    simp only [shown, List.map_cons, template]
    rw [show template (List.map (fun e => (e.1, e.2.opens, e.2.close, e.2.level)) (marks start nxt (some d) ((k', d') :: l))) = _ from this]
    simp only [body, closes, headDepth, List.append_assoc, List.cons_append, List.nil_append]

theorem body_append (nxt : Int) : ∀ (a : List (Nat × Int)) (e : Nat × Int) (b : List (Nat × Int)) (h : a ≠ []),
    body nxt (a ++ e :: b) = body e.2 a ++ (mark (a.getLast h).2 e.2 ++ body nxt (e :: b)) := by
  intro a
  induction a with
  | nil => intro e b h; exact absurd rfl h
  | cons x a ih =>
    intro e b _
    obtain ⟨kx, dx⟩ := x
    obtain ⟨ke, de⟩ := e
    cases a with
    | nil => simp [body]
    | cons y a =>
      obtain ⟨ky, dy⟩ := y
      have := ih (ke, de) b (by simp)
      rw [List.cons_append] at this
      rw [List.cons_append, List.cons_append, body, this, body]
      simp [List.getLast_cons]

/-! ### Listings -/

variable {F : Forest}

/-- the entries without the first `<li>` and the last `</li>` -/
inductive Core (F : Forest) : List Nat → List Tok → Prop where
  | one {c g} : F.Entries (F (some c)) g → Core F [c] (.item c :: wrap g)
  | cons {c c' cs g t} : F.Entries (F (some c)) g → Core F (c' :: cs) t → Core F (c :: c' :: cs) (.item c :: (wrap g ++ [.liEnd, .li] ++ t))

theorem Core.entries {cs : List Nat} {t : List Tok} (h : Core F cs t) : F.Entries cs (.li :: t ++ [.liEnd]) := by
  induction h with
  | one hg =>
    have := Forest.Entries.cons hg .nil
    simpa using this
  | cons hg _ ih =>
    have := Forest.Entries.cons hg ih
    simpa using this

/-- a listing together with the depths: depths go up by one from a node to its children -/
inductive Deep (F : Forest) : Int → List Nat → List (Nat × Int) → Prop where
  | nil {d} : Deep F d [] []
  | cons {d c cs l₁ l₂} : Deep F (d + 1) (F (some c)) l₁ → Deep F d cs l₂ → Deep F d (c :: cs) ((c, d) :: (l₁ ++ l₂))

theorem Deep.ge {d : Int} {cs : List Nat} {l : List (Nat × Int)} (h : Deep F d cs l) : ∀ e ∈ l, d ≤ e.2 := by
  induction h with
  | nil => simp
  | cons _ _ ih1 ih2 =>
    intro e he
    rw [List.mem_cons, List.mem_append] at he
    rcases he with rfl | he | he
    · exact Int.le_refl _
    · have := ih1 e he; omega
    · exact ih2 e he

theorem Deep.head {d : Int} {cs : List Nat} {e : Nat × Int} {l : List (Nat × Int)} (h : Deep F d cs (e :: l)) : e.2 = d := by
  cases h; rfl

theorem Deep.nil_iff {d : Int} {cs : List Nat} {l : List (Nat × Int)} (h : Deep F d cs l) : l = [] ↔ cs = [] := by
  cases h <;> simp

theorem Deep.body {d : Int} {cs : List Nat} {l : List (Nat × Int)} (h : Deep F d cs l) : cs ≠ [] → ∀ nxt ≤ d,
    ∃ t, Core F cs t ∧ body nxt l = t ++ closes (d - nxt) := by
  induction h with
  | nil => intro h; exact absurd rfl h
  | @cons d c cs l₁ l₂ h1 h2 ih1 ih2 =>
    intro _ nxt hn
    -- the node with its children, followed by `m`
    have first : ∀ m ≤ d, ∃ g, F.Entries (F (some c)) g ∧ Verif.body m ((c, d) :: l₁) = .item c :: (wrap g ++ closes (d - m)) := by
      intro m hm
      cases l₁ with
      | nil =>
        have : F (some c) = [] := (h1.nil_iff).1 rfl
        exact ⟨[], by rw [this]; exact .nil, by simp [Verif.body, wrap]⟩
      | cons e l₁ =>
        have hne : F (some c) ≠ [] := fun e' => by simpa using (h1.nil_iff).2 e'
        obtain ⟨t, ht, hb⟩ := ih1 hne m (by omega)
        refine ⟨_, ht.entries, ?_⟩
        have he : e.2 = d + 1 := h1.head
        obtain ⟨k', d'⟩ := e
        simp only at he
        subst he
        rw [Verif.body, hb, closes_nonpos (by omega), mark, if_pos (by omega), closes_succ (n := d + 1 - m) (by omega),
          show d + 1 - m - 1 = d - m by omega]
        simp [wrap]
    cases l₂ with
    | nil =>
      have : cs = [] := (h2.nil_iff).1 rfl
      subst this
      obtain ⟨g, hg, hb⟩ := first nxt hn
      exact ⟨_, .one hg, by rw [List.append_nil, hb]; simp⟩
    | cons e l₂ =>
      have he : e.2 = d := h2.head
      obtain ⟨g, hg, hb⟩ := first e.2 (by omega)
      cases cs with
      | nil => simpa using (h2.nil_iff).2 rfl
      | cons c' cs =>
        obtain ⟨t, ht, hb2⟩ := ih2 (by simp) nxt hn
        refine ⟨_, .cons hg ht, ?_⟩
        have hge : ¬ ((((c, d) :: l₁).getLast (by simp)).2 < e.2) := by
          have hm := List.getLast_mem (l := (c, d) :: l₁) (by simp)
          rw [List.mem_cons] at hm
          rcases hm with hm | hm
          · rw [hm]; simp only; omega
          · have := h1.ge _ hm; omega
        rw [← List.cons_append, body_append nxt ((c, d) :: l₁) e l₂ (by simp), hb, mark, if_neg hge, hb2, he, closes_nonpos (n := d - d) (by omega)]
        simp

theorem Deep.dfs {d : Int} {cs : List Nat} {l : List (Nat × Int)} (h : Deep F d cs l) : F.DFS cs (l.map (·.1)) := by
  induction h with
  | nil => exact .nil
  | cons _ _ ih1 ih2 =>
    rw [List.map_cons, List.map_append]
    exact .cons ih1 ih2

/-- the template prints the nested lists of a listing -/
theorem annotate_page {d : Int} (hd : 0 < d) {cs : List Nat} {l : List (Nat × Int)} (h : Deep F d cs l) :
    ∃ t, F.Entries cs t ∧ template (shown (annotate l)) = wrap t := by
  cases l with
  | nil =>
    rw [(h.nil_iff).1 rfl]
    exact ⟨[], .nil, rfl⟩
  | cons e l =>
    have he := h.head
    obtain ⟨k, d'⟩ := e
    simp only at he
    subst he
    have hne : cs ≠ [] := fun e => by simpa using (h.nil_iff).2 e
    obtain ⟨t, ht, hb⟩ := h.body hne (d' - 1) (by omega)
    refine ⟨_, ht.entries, ?_⟩
    rw [annotate_eq (fun e he => by have := h.ge e he; omega) hd, template_marks, hb, closes_succ (by omega), closes_nonpos (by omega)]
    simp [wrap, opensAt]

theorem marks_level (start nxt : Int) : ∀ (prev : Option Int) (l : List (α × Int)), (marks start nxt prev l).map (fun e => (e.1, e.2.level)) =
    l.map (fun e => (e.1, e.2 - start)) := by
  intro prev l
  induction l generalizing prev with
  | nil => rfl
  | cons e l ih =>
    obtain ⟨n, d⟩ := e
    rw [marks, List.map_cons, ih, List.map_cons]

theorem annotate_level {d : Int} (hd : 0 < d) {cs : List Nat} {l : List (Nat × Int)} (h : Deep F d cs l) :
    (annotate l).map (fun e => (e.1, e.2.level)) = l.map (fun e => (e.1, e.2 - d)) := by
  cases l with
  | nil => rfl
  | cons e l =>
    have he := h.head
    obtain ⟨k, d'⟩ := e
    simp only at he
    subst he
    rw [annotate_eq (fun e he => by have := h.ge e he; omega) hd, marks_level]

/-! ### From levels to depths -/

theorem level_unique (hu : ∀ p q k, k ∈ F p → k ∈ F q → p = q) {k a : Nat} (h : F.Level k a) : ∀ b, F.Level k b → a = b := by
  induction h with
  | root hm =>
    intro b hb
    cases hb with
    | root _ => rfl
    | child hp hm' => exact absurd (hu _ _ _ hm hm') (by simp)
  | child hp hm ih =>
    intro b hb
    cases hb with
    | root hm' => exact absurd (hu _ _ _ hm hm') (by simp)
    | child hp' hm' =>
      have := hu _ _ _ hm hm'
      injection this with this
      subst this
      rw [ih _ hp']

theorem deep_of_level (hu : ∀ p q k, k ∈ F p → k ∈ F q → p = q) {cs ks : List Nat} (h : F.DFS cs ks) :
    ∀ {l : List (Nat × Int)} {d : Nat}, l.map (·.1) = ks → (∀ e ∈ l, ∃ n : Nat, e.2 = n ∧ F.Level e.1 n) → (∀ c ∈ cs, F.Level c d) →
    Deep F d cs l := by
  induction h with
  | nil =>
    intro l d e _ _
    rw [List.map_eq_nil_iff] at e
    subst e
    exact .nil
  | @cons c cs l₁ l₂ _ _ ih1 ih2 =>
    intro l d e hl hc
    cases l with
    | nil => simp at e
    | cons x l =>
      rw [List.map_cons, List.cons.injEq] at e
      obtain ⟨k, dk⟩ := x
      simp only at e
      obtain ⟨rfl, e⟩ := e
      obtain ⟨m₁, m₂, rfl, e1, e2⟩ := List.map_eq_append_iff.1 e
      have hk := hc k (by simp)
      obtain ⟨n, hn, hn'⟩ := hl (k, dk) (by simp)
      have : n = d := level_unique hu hn' _ hk
      simp only at hn
      rw [hn, this]
      refine .cons ?_ (ih2 e2 (fun x hx => hl x (by simp [hx])) (fun c hc' => hc c (List.mem_cons_of_mem _ hc')))
      exact_mod_cast ih1 (d := d + 1) e1 (fun x hx => hl x (by simp [hx])) (fun c hc' => .child hk hc')

/-- The annotated list of a depth-first listing whose nodes report their levels as depths. -/
theorem annotates_of_levels (hu : ∀ p q k, k ∈ F p → k ∈ F q → p = q) {cs : List Nat} {l : List (Nat × Int)}
    (h : F.DFS cs (l.map (·.1))) (hl : ∀ e ∈ l, ∃ n : Nat, e.2 = n ∧ F.Level e.1 n) {d : Nat} (hc : ∀ c ∈ cs, F.Level c d) (hd : 0 < d) :
    Annotates F cs (shown (annotate l)) := by
  have hdeep := deep_of_level hu h rfl hl hc
  have hd' : (0 : Int) < d := by omega
  have hlev := annotate_level hd' hdeep
  have hkeys : (shown (annotate l)).map (·.1) = l.map (·.1) := by
    have := congrArg (List.map Prod.fst) hlev
    rw [List.map_map, List.map_map] at this
    unfold shown
    rw [List.map_map]
    exact this
  refine ⟨by rw [hkeys]; exact h, ?_, annotate_page hd' hdeep⟩
  intro e he
  unfold shown at he
  rw [List.mem_map] at he
  obtain ⟨x, hx, rfl⟩ := he
  have : (x.1, x.2.level) ∈ l.map (fun e => (e.1, e.2 - (d : Int))) := by
    rw [← hlev]; exact List.mem_map_of_mem (f := fun e => (e.1, e.2.level)) hx
  rw [List.mem_map] at this
  obtain ⟨y, hy, e⟩ := this
  rw [Prod.mk.injEq] at e
  obtain ⟨n, hn, hn'⟩ := hl y hy
  cases l with
  | nil => simp at hy
  | cons z l =>
    have hz := hdeep.head
    obtain ⟨m, hm, hm'⟩ := hl z (by simp)
    cases hh : shown (annotate (z :: l)) with
    | nil => rw [hh] at hkeys; simp at hkeys
    | cons f r =>
      rw [hh, List.map_cons, List.map_cons, List.cons.injEq] at hkeys
      refine ⟨f, m, n, rfl, by rw [hkeys.1]; exact hm', by rw [← e.1]; exact hn', ?_⟩
      simp only
      rw [← e.2, hn, ← hm, hz]

/-! ### With a limit -/

theorem filter_dfs {keep : Nat → Bool} (hk : ∀ k y, F.Desc k y → keep y = true → keep k = true) {cs l : List Nat} (h : F.DFS cs l) :
    Forest.DFS (fun p => (F p).filter keep) (cs.filter keep) (l.filter keep) := by
  induction h with
  | nil => exact .nil
  | @cons c cs l₁ l₂ h1 _ ih1 ih2 =>
    by_cases hc : keep c = true
    · rw [List.filter_cons_of_pos hc, List.filter_cons_of_pos hc, List.filter_append]
      exact .cons ih1 ih2
    · rw [List.filter_cons_of_neg hc, List.filter_cons_of_neg hc, List.filter_append]
      have : l₁.filter keep = [] := by
        rw [List.filter_eq_nil_iff]
        intro y hy hky
        obtain ⟨c', hc', hd⟩ := (h1.mem y).1 hy
        refine hc (hk c y ?_ hky)
        rcases hd with rfl | hd
        · exact .child hc'
        · exact Forest.Desc.trans (.child hc') hd
      rw [this, List.nil_append]
      exact ih2

theorem desc_level (hu : ∀ p q k, k ∈ F p → k ∈ F q → p = q) {a y : Nat} (h : F.Desc a y) : ∀ {n : Nat}, F.Level y n → ∃ m, F.Level a m ∧ m < n := by
  induction h with
  | child hm =>
    intro n hl
    cases hl with
    | root hr => exact absurd (hu _ _ _ hm hr) (by simp)
    | child hp hm' =>
      have := hu _ _ _ hm hm'
      injection this with this
      subst this
      exact ⟨_, hp, by omega⟩
  | step _ hm ih =>
    intro n hl
    cases hl with
    | root hr => exact absurd (hu _ _ _ hm hr) (by simp)
    | child hp hm' =>
      have := hu _ _ _ hm hm'
      injection this with this
      subst this
      obtain ⟨m, h1, h2⟩ := ih hp
      exact ⟨m, h1, by omega⟩

open Classical in
/-- the nodes up to a level -/
noncomputable def upTo (F : Forest) (m : Nat) (k : Nat) : Bool := decide (∃ n, F.Level k n ∧ n ≤ m)

theorem upTo_iff {m k : Nat} : upTo F m k = true ↔ ∃ n, F.Level k n ∧ n ≤ m := by
  unfold upTo; simp

theorem cut_upTo (m : Nat) (l : List Nat) : F.Cut m l (l.filter (upTo F m)) := ⟨upTo F m, rfl, fun _ _ => upTo_iff⟩

theorem level_cut {m k n : Nat} (h : F.Level k n) : n ≤ m → Forest.Level (fun p => (F p).filter (upTo F m)) k n := by
  induction h with
  | root hr => intro hn; exact .root (List.mem_filter.2 ⟨hr, upTo_iff.2 ⟨1, .root hr, hn⟩⟩)
  | child hp hm ih => intro hn; exact .child (ih (by omega)) (List.mem_filter.2 ⟨hm, upTo_iff.2 ⟨_, .child hp hm, hn⟩⟩)

theorem annotates_limited (hu : ∀ p q k, k ∈ F p → k ∈ F q → p = q) {p : Option Nat} {l : List (Nat × Int)}
    (h : F.DFS (F.tops p) (l.map (·.1))) (hl : ∀ e ∈ l, ∃ n : Nat, e.2 = n ∧ F.Level e.1 n) {d : Nat} (hc : ∀ c ∈ F.tops p, F.Level c d)
    (hd : 0 < d) (m : Nat) : AnnotatesTree F p (some m) (shown (annotate (l.filter (fun e => decide (e.2 ≤ (m : Int)))))) := by
  refine ⟨_, _, fun p => cut_upTo m (F p), cut_upTo m _, ?_⟩
  have hfilter : (l.filter (fun e => decide (e.2 ≤ (m : Int)))).map (·.1) = (l.map (·.1)).filter (upTo F m) := by
    rw [List.filter_map]
    congr 1
    refine List.filter_congr (fun e he => ?_)
    obtain ⟨n, hn, hlev⟩ := hl e he
    rw [Function.comp_apply, Bool.eq_iff_iff, upTo_iff, decide_eq_true_iff, hn]
    constructor
    · intro hle; exact ⟨n, hlev, by omega⟩
    · rintro ⟨n', h1, h2⟩
      have := level_unique hu hlev _ h1
      omega
  refine annotates_of_levels (d := d) ?_ ?_ ?_ ?_ hd
  · intro a b k ha hb
    exact hu a b k (List.mem_of_mem_filter ha) (List.mem_of_mem_filter hb)
  · rw [hfilter]
    refine filter_dfs (fun k y hdesc hy => ?_) h
    rw [upTo_iff] at hy ⊢
    obtain ⟨n, h1, h2⟩ := hy
    obtain ⟨a, h3, h4⟩ := desc_level hu hdesc h1
    exact ⟨a, h3, by omega⟩
  · intro e he
    rw [List.mem_filter, decide_eq_true_iff] at he
    obtain ⟨n, hn, hlev⟩ := hl e he.1
    exact ⟨n, hn, level_cut hlev (by omega)⟩
  · intro c hc'
    rw [List.mem_filter, upTo_iff] at hc'
    obtain ⟨n, h1, h2⟩ := hc'.2
    have := level_unique hu h1 _ (hc c hc'.1)
    subst this
    exact level_cut h1 h2

theorem tops_level {p : Option Nat} {l : List Nat} (h : TreeListing F p none l) :
    F.DFS (F.tops p) l ∧ ∃ d, 0 < d ∧ ∀ c ∈ F.tops p, F.Level c d := by
  obtain ⟨full, base, h1, _, keep, rfl, h3⟩ := h
  have : full.filter keep = full := List.filter_eq_self.2 (fun k hk => (h3 k hk).2 (by simp))
  rw [this]
  cases p with
  | none => exact ⟨h1.1, 1, by omega, fun c hc => .root hc⟩
  | some k =>
    refine ⟨h1.1, base, ?_, ?_⟩
    · cases h1.2 <;> omega
    · intro c hc
      rw [Forest.tops, List.mem_singleton] at hc
      rw [hc]; exact h1.2

/-- The annotated list of what `get_tree` lists, without and with a limit. -/
theorem annotates_tree (hu : ∀ p q k, k ∈ F p → k ∈ F q → p = q) {p : Option Nat} {l : List (Nat × Int)}
    (h : TreeListing F p none (l.map (·.1))) (hl : ∀ e ∈ l, ∃ n : Nat, e.2 = n ∧ F.Level e.1 n) (m : Option Nat) :
    AnnotatesTree F p m (shown (annotate (match m with | none => l | some m => l.filter (fun e => decide (e.2 ≤ (m : Int)))))) := by
  obtain ⟨h1, d, hd, hc⟩ := tops_level h
  cases m with
  | none => exact annotates_of_levels hu h1 hl hc hd
  | some m => exact annotates_limited hu h1 hl hc hd m

theorem shown_map {β : Type} (f : β → Nat) (l : List (β × Int)) :
    (annotate l).map (fun e => (f e.1, e.2.opens, e.2.close, e.2.level)) = shown (annotate (l.map (fun e => (f e.1, e.2)))) := by
  have hs : ∀ (r : List (β × Info)) (c : List Nat), (setClose r c).map (fun e => (f e.1, e.2)) = setClose (r.map (fun e => (f e.1, e.2))) c := by
    intro r c
    unfold setClose
    rw [List.getLast?_map]
    cases r.getLast? with
    | none => rfl
    | some x => simp [List.map_dropLast]
  have hloop : ∀ (l : List (β × Int)) (s p : Option Int) (r : List (β × Info)),
      annotateLoop s p (r.map (fun e => (f e.1, e.2))) (l.map (fun e => (f e.1, e.2))) =
        ((annotateLoop s p r l).1.map (fun e => (f e.1, e.2)), (annotateLoop s p r l).2) := by
    intro l
    induction l with
    | nil => intro s p r; rfl
    | cons x l ih =>
      obtain ⟨n, d⟩ := x
      intro s p r
      simp only [List.map_cons, annotateLoop]
      rw [← ih]
      congr 1
      rw [List.map_append]
      congr 1
      cases p with
      | none => rfl
      | some p =>
        simp only
        split
        · rw [hs]
        · rfl
  unfold shown
  have : annotate (l.map (fun e => (f e.1, e.2))) = (annotate l).map (fun e => (f e.1, e.2)) := by
    unfold annotate
    have := hloop l none none []
    rw [List.map_nil] at this
    rw [this]
    obtain ⟨r, s, p⟩ := annotateLoop none none [] l
    cases s <;> cases p <;> simp only
    split
    · rw [hs]
    · rfl
  rw [this, List.map_map]
  rfl

end Verif
