/-
Reading an indented list gives back the forest.
-/
import Verif.SpecOutline
import Verif.OutlineModel
import Verif.FormLemmas
import Verif.SpecDeleteLoop

namespace Verif

/-! ### Text -/

/-- what a string of the model is meant to look like -/
def Text.Means (s : Text) (t : List Char) : Prop := if s.safe then Displays s.chars t else s.chars = t

theorem Displays.append {a b s t : List Char} (h : Displays a s) (h' : Displays b t) : Displays (a ++ b) (s ++ t) := by
  induction h with
  | nil => exact h'
  | char hc _ ih => exact .char hc ih
  | nbsp _ ih => exact .nbsp ih
  | amp _ ih => exact .amp ih
  | lt _ ih => exact .lt ih
  | gt _ ih => exact .gt ih
  | quot _ ih => exact .quot ih
  | apos _ ih => exact .apos ih

theorem displays_escapeChar (c : Char) : Displays (escapeChar c) [c] := by
  unfold escapeChar
  split
  next h => subst h; exact .amp .nil
  split
  next h => subst h; exact .lt .nil
  split
  next h => subst h; exact .gt .nil
  split
  next h => subst h; exact .quot .nil
  split
  next h => subst h; exact .apos .nil
  next h1 h2 h3 h4 h5 => exact .char (by simp [h1, h2, h3, h4, h5]) .nil

theorem displays_escape : ∀ s : List Char, Displays (s.flatMap escapeChar) s
  | [] => .nil
  | c :: s => (displays_escapeChar c).append (displays_escape s)

theorem displays_condEscape {s : Text} {t : List Char} (h : s.Means t) : Displays (condEscape s).chars t := by
  unfold Text.Means at h
  unfold condEscape
  split
  next e => rwa [if_pos e] at h
  next e =>
    rw [if_neg e] at h
    subst h
    exact displays_escape _

theorem displays_indent : ∀ n : Nat, Displays (List.replicate n depthSeparator.chars).flatten (List.replicate (4 * n) nbsp)
  | 0 => .nil
  | n + 1 => by
    have h4 : Displays depthSeparator.chars [nbsp, nbsp, nbsp, nbsp] := .nbsp (.nbsp (.nbsp (.nbsp .nil)))
    rw [List.replicate_succ, List.flatten_cons, show 4 * (n + 1) = 4 + 4 * n by omega, ← List.replicate_append_replicate]
    exact h4.append (displays_indent n)

theorem displays_label {s : Text} {t : List Char} (h : s.Means t) (n : Nat) :
    Displays (labelFromInstance ((n + 1 : Nat) : Int) s).chars (List.replicate (4 * n) nbsp ++ t) := by
  have e : (((n + 1 : Nat) : Int) - 1).toNat = n := by omega
  show Displays ((List.replicate (((n + 1 : Nat) : Int) - 1).toNat depthSeparator.chars).flatten ++ _) _
  rw [e]
  exact (displays_indent n).append (displays_condEscape h)

/-- HTML is shown in one way only -/
theorem Displays.unique {h s : List Char} (hs : Displays h s) : ∀ {t : List Char}, Displays h t → s = t := by
  induction hs with
  | nil => intro t ht; cases ht; rfl
  | char hc _ ih =>
    intro t ht
    cases ht <;> first | (simp at hc; done) | (rename_i hd; rw [ih hd])
  | nbsp _ ih =>
    intro t ht
    cases ht with
    | char hc _ => simp at hc
    | nbsp hd => rw [ih hd]
  | amp _ ih =>
    intro t ht
    cases ht with
    | char hc _ => simp at hc
    | amp hd => rw [ih hd]
  | lt _ ih =>
    intro t ht
    cases ht with
    | char hc _ => simp at hc
    | lt hd => rw [ih hd]
  | gt _ ih =>
    intro t ht
    cases ht with
    | char hc _ => simp at hc
    | gt hd => rw [ih hd]
  | quot _ ih =>
    intro t ht
    cases ht with
    | char hc _ => simp at hc
    | quot hd => rw [ih hd]
  | apos _ ih =>
    intro t ht
    cases ht with
    | char hc _ => simp at hc
    | apos hd => rw [ih hd]

/-- there is no markup in it -/
theorem Displays.no_markup {h s : List Char} (hs : Displays h s) : '<' ∉ h ∧ '>' ∉ h ∧ '"' ∉ h ∧ '\'' ∉ h := by
  induction hs with
  | nil => simp
  | char hc _ ih =>
    simp only [List.mem_cons, not_or, List.not_mem_nil, not_false_eq_true, and_true] at hc
    simp only [List.mem_cons, not_or]
    exact ⟨⟨Ne.symm hc.2.1, ih.1⟩, ⟨Ne.symm hc.2.2.1, ih.2.1⟩, ⟨Ne.symm hc.2.2.2.1, ih.2.2.1⟩, ⟨Ne.symm hc.2.2.2.2, ih.2.2.2⟩⟩
  | _ _ ih => simpa using ih

/-! ### Outlines -/

variable {F : Forest}

/-- `O` lists the branches of the siblings `cs`, which are indented `d` levels -/
inductive Outl (F : Forest) : Nat → List Nat → List (Nat × Nat) → Prop where
  | nil {d} : Outl F d [] []
  | cons {d c cs O₁ O₂} : Outl F (d + 1) (F (some c)) O₁ → Outl F d cs O₂ → Outl F d (c :: cs) ((c, d) :: (O₁ ++ O₂))

theorem outl_of_dfs {cs l : List Nat} (h : F.DFS cs l) : ∀ d, ∃ O, Outl F d cs O ∧ O.map (·.1) = l := by
  induction h with
  | nil => exact fun d => ⟨[], .nil, rfl⟩
  | cons _ _ ih1 ih2 =>
    intro d
    obtain ⟨O₁, h1, e1⟩ := ih1 (d + 1)
    obtain ⟨O₂, h2, e2⟩ := ih2 d
    exact ⟨_, .cons h1 h2, by simp [e1, e2]⟩

theorem Outl.ge {d : Nat} {cs : List Nat} {O : List (Nat × Nat)} (h : Outl F d cs O) : ∀ e ∈ O, d ≤ e.2 := by
  induction h with
  | nil => simp
  | cons _ _ ih1 ih2 =>
    intro e he
    rcases List.mem_cons.1 he with rfl | he
    · exact Nat.le_refl _
    rcases List.mem_append.1 he with he | he
    · exact Nat.le_of_succ_le (ih1 e he)
    · exact ih2 e he

theorem Outl.tops {d : Nat} {cs : List Nat} {O : List (Nat × Nat)} (h : Outl F d cs O) : (O.filter (fun e => e.2 == d)).map (·.1) = cs := by
  induction h with
  | nil => rfl
  | @cons d c cs O₁ O₂ h1 _ _ ih2 =>
    have e : O₁.filter (fun e => e.2 == d) = [] := by
      rw [List.filter_eq_nil_iff]
      intro e he
      have := h1.ge e he
      simp only [beq_iff_eq]
      omega
    rw [List.filter_cons_of_pos (by simp), List.filter_append, e, List.map_cons, List.nil_append, ih2]

theorem Outl.levels {d : Nat} {cs : List Nat} {O : List (Nat × Nat)} (h : Outl F d cs O) (hc : ∀ c ∈ cs, F.Level c (d + 1)) : ∀ e ∈ O, F.Level e.1 (e.2 + 1) := by
  induction h with
  | nil => simp
  | cons _ _ ih1 ih2 =>
    intro e he
    rcases List.mem_cons.1 he with rfl | he
    · exact hc _ (by simp)
    rcases List.mem_append.1 he with he | he
    · exact ih1 (fun k hk => .child (hc _ (by simp)) hk) e he
    · exact ih2 (fun k hk => hc k (by simp [hk])) e he

theorem dropWhile_skip {p : Nat} {A B : List (Nat × Nat)} (h : p ∉ A.map (·.1)) : (A ++ B).dropWhile (fun e => e.1 != p) = B.dropWhile (fun e => e.1 != p) := by
  induction A with
  | nil => rfl
  | cons a A ih =>
    simp only [List.map_cons, List.mem_cons, not_or] at h
    rw [List.cons_append, List.dropWhile_cons_of_pos (by simp [Ne.symm h.1]), ih h.2]

theorem takeWhile_stop {n : Nat} {A B : List (Nat × Nat)} (hA : ∀ e ∈ A, n < e.2) (hB : ∀ e, B.head? = some e → e.2 ≤ n) :
    (A ++ B).takeWhile (fun e => decide (n < e.2)) = A := by
  induction A with
  | nil =>
    cases B with
    | nil => rfl
    | cons b B => rw [List.nil_append, List.takeWhile_cons_of_neg]; have := hB b rfl; simpa using this
  | cons a A ih =>
    rw [List.cons_append, List.takeWhile_cons_of_pos (by simpa using hA a (by simp)), ih (fun e he => hA e (by simp [he]))]

theorem Outl.kids {d : Nat} {cs : List Nat} {O : List (Nat × Nat)} (h : Outl F d cs O) : (O.map (·.1)).Nodup → ∀ R : List (Nat × Nat), (∀ e, R.head? = some e → e.2 ≤ d) →
    ∀ p ∈ O.map (·.1), readOutline (O ++ R) (some p) = F (some p) := by
  induction h with
  | nil => simp
  | @cons d c cs O₁ O₂ h1 h2 ih1 ih2 =>
    intro hnd R hR p hp
    simp only [List.map_cons, List.map_append, List.nodup_cons, List.mem_append, not_or, List.nodup_append] at hnd
    obtain ⟨⟨hc1, hc2⟩, hn1, hn2, hn12⟩ := hnd
    have hR2 : ∀ e, (O₂ ++ R).head? = some e → e.2 ≤ d := by
      intro e he
      cases h2 with
      | nil => exact hR e he
      | cons _ _ => cases he; exact Nat.le_refl _
    simp only [List.map_cons, List.map_append, List.mem_cons, List.mem_append] at hp
    by_cases hpc : p = c
    · subst hpc
      simp only [readOutline]
      rw [List.cons_append, List.dropWhile_cons_of_neg (by simp)]
      simp only
      rw [List.append_assoc, takeWhile_stop (fun e he => h1.ge e he) hR2, h1.tops]
    have hskip : readOutline ((c, d) :: (O₁ ++ O₂) ++ R) (some p) = readOutline (O₁ ++ (O₂ ++ R)) (some p) := by
      simp only [readOutline]
      rw [List.cons_append, List.dropWhile_cons_of_pos (by simp [Ne.symm hpc]), List.append_assoc]
    rw [hskip]
    rcases hp with hp | hp | hp
    · exact absurd hp hpc
    · exact ih1 hn1 (O₂ ++ R) (fun e he => Nat.le_succ_of_le (hR2 e he)) p hp
    · have : readOutline (O₁ ++ (O₂ ++ R)) (some p) = readOutline (O₂ ++ R) (some p) := by
        simp only [readOutline]
        rw [dropWhile_skip (fun h => hn12 p h p hp rfl)]
      rw [this]
      exact ih2 hn2 R hR p hp

/-- **Reading a depth-first listing with its levels gives back the forest.** -/
theorem Outl.read {O : List (Nat × Nat)} (h : Outl F 0 (F none) O) (hnd : (O.map (·.1)).Nodup) (hout : ∀ p, p ∉ O.map (·.1) → F (some p) = []) : readOutline O = F := by
  funext p
  cases p with
  | none => exact h.tops
  | some p =>
    by_cases hp : p ∈ O.map (·.1)
    · have := h.kids hnd [] (by simp) p hp
      rwa [List.append_nil] at this
    · rw [hout p hp]
      simp only [readOutline]
      have := dropWhile_skip (B := []) hp
      rw [List.append_nil] at this
      rw [this]
      rfl

/-! ### Without a branch -/

theorem dfs_prune {D : Nat → Bool} (hD : ∀ a k, D a = true → F.Desc a k → D k = true) {cs l : List Nat} (h : F.DFS cs l) :
    (F.prune D).DFS (cs.filter (fun k => !D k)) (l.filter (fun k => !D k)) := by
  induction h with
  | nil => exact .nil
  | @cons c cs l₁ l₂ h1 _ ih1 ih2 =>
    cases hc : D c with
    | true =>
      rw [List.filter_cons_of_neg (by simp [hc]), List.filter_cons_of_neg (by simp [hc]), List.filter_append]
      have e : l₁.filter (fun k => !D k) = [] := by
        rw [List.filter_eq_nil_iff]
        intro k hk
        obtain ⟨m, hm, hk⟩ := (h1.mem k).1 hk
        have : D k = true := by
          rcases hk with rfl | hk
          · exact hD c _ hc (.child hm)
          · exact hD c _ hc (Forest.Desc.trans (.child hm) hk)
        simp [this]
      rw [e, List.nil_append]
      exact ih2
    | false =>
      rw [List.filter_cons_of_pos (by simp [hc]), List.filter_cons_of_pos (by simp [hc]), List.filter_append]
      refine .cons ?_ ih2
      have e : F.prune D (some c) = (F (some c)).filter (fun k => !D k) := by simp [Forest.prune, hc]
      rw [e]
      exact ih1

theorem level_of_prune {D : Nat → Bool} {k n : Nat} (h : (F.prune D).Level k n) : F.Level k n := by
  induction h with
  | root hx => exact .root (Forest.mem_prune hx).1
  | child _ hx ih => exact .child ih (Forest.mem_prune hx).1

/-- the nodes of the branch of `x`, none without `x` -/
def InBranch (F : Forest) (x : Option Nat) (D : Nat → Bool) : Prop := ∀ k, D k = true ↔ ∃ a, x = some a ∧ (k = a ∨ F.Desc a k)

/-- The choices of all four kinds. -/
theorem showsOutline {ids : List Nat} (hF : F.IsForestOn ids) {tree : List Nat} (ht : TreeListing F none none tree) {x : Option Nat} {D : Nat → Bool}
    (hD : InBranch F x D) {lvl : Nat → Nat} (hl : ∀ k ∈ tree, ∀ n, F.Level k n → lvl k = n) {str : Nat → Text} {text : Nat → List Char} (hs : ∀ k ∈ tree, (str k).Means (text k))
    (top : List Char) :
    ShowsOutline (F.prune D) text ((none, top) :: (tree.filter (fun k => !D k)).map (fun k => (some k, (labelFromInstance ((lvl k : Nat) : Int) (str k)).chars))) := by
  obtain ⟨full, base, ⟨hd, _⟩, hnd, keep, rfl, hk⟩ := ht
  have hfull : full.filter keep = full := List.filter_eq_self.2 (fun k hkf => (hk k hkf).2 (by simp))
  rw [hfull] at hl hs ⊢
  have hclosed : ∀ a k, D a = true → F.Desc a k → D k = true := by
    intro a k ha hak
    obtain ⟨b, hb, hab⟩ := (hD a).1 ha
    refine (hD k).2 ⟨b, hb, Or.inr ?_⟩
    rcases hab with rfl | hab
    · exact hak
    · exact hab.trans hak
  have hd' : (F.prune D).DFS (F.prune D none) (full.filter (fun k => !D k)) := dfs_prune hclosed hd
  obtain ⟨O, hO, e⟩ := outl_of_dfs hd' 0
  have hlev := hO.levels (fun c hc => .root hc)
  have hnd' : (O.map (·.1)).Nodup := by rw [e]; exact hnd.filter _
  have hin : ∀ q ∈ O, q.1 ∈ full := fun q hq => List.mem_of_mem_filter (e ▸ List.mem_map_of_mem hq : q.1 ∈ full.filter (fun k => !D k))
  refine ⟨top, O, fun q => (labelFromInstance ((q.2 + 1 : Nat) : Int) (str q.1)).chars, ?_, by rw [e]; exact hd', hnd', hO.read hnd' ?_, hlev, ?_⟩
  · rw [← e, List.map_map]
    congr 1
    apply List.map_congr_left
    intro q hq
    simp only [Function.comp_apply]
    rw [hl q.1 (hin q hq) (q.2 + 1) (level_of_prune (hlev q hq))]
  · intro p hp
    rw [e, List.mem_filter] at hp
    by_cases hdp : D p = true
    · simp [Forest.prune, hdp]
    · have hpf : p ∉ full := fun h => hp ⟨h, by simp [hdp]⟩
      obtain ⟨l', hdl, _, hperm⟩ := hF.listing
      have hpi : p ∉ ids := by
        intro h
        exact hpf ((hd.mem p).2 ((hdl.mem p).1 (hperm.mem_iff.2 h)))
      simp [Forest.prune, hF.outside p hpi]
  · intro q hq
    exact displays_label (hs q.1 (hin q hq)) q.2

theorem levels_agree (hu : ∀ p q k, k ∈ F p → k ∈ F q → p = q) {k n m : Nat} (h1 : F.Level k n) (h2 : F.Level k m) : n = m := by
  induction h1 generalizing m with
  | root hr =>
    cases h2 with
    | root => rfl
    | child _ hm => cases hu _ _ _ hr hm
  | child _ hm ih =>
    cases h2 with
    | root hr => cases hu _ _ _ hr hm
    | child hl hm' =>
      cases hu _ _ _ hm hm'
      rw [ih hl]

theorem find_key {ρ : Type} {pk : ρ → Nat} : ∀ {l : List ρ}, (l.map pk).Nodup → ∀ {r : ρ}, r ∈ l → l.find? (fun s => pk s == pk r) = some r
  | a :: l, hnd, r, hr => by
    rw [List.map_cons, List.nodup_cons] at hnd
    rcases List.mem_cons.1 hr with rfl | hr
    · rw [List.find?_cons_of_pos (by simp)]
    · rw [List.find?_cons_of_neg, find_key hnd.2 hr]
      simp only [beq_iff_eq]
      exact fun e => hnd.1 (e ▸ List.mem_map_of_mem hr)

/-- the same with objects instead of keys -/
theorem showsOutline_rows {ρ : Type} {pk depth : ρ → Nat} {str : ρ → Text} {ids : List Nat} (hF : F.IsForestOn ids) {tree : List ρ} (ht : TreeListing F none none (tree.map pk))
    {x : Option Nat} {branch : List Nat} (hD : InBranch F x (fun k => decide (k ∈ branch))) (hl : ∀ r ∈ tree, F.Level (pk r) (depth r))
    (hu : ∀ p q k, k ∈ F p → k ∈ F q → p = q) {text : Nat → List Char} (hs : ∀ r ∈ tree, (str r).Means (text (pk r))) (top : List Char) :
    ShowsOutline (F.prune (fun k => decide (k ∈ branch))) text
      ((none, top) :: (tree.filter (fun r => decide (pk r ∉ branch))).map (fun r => (some (pk r), (labelFromInstance ((depth r : Nat) : Int) (str r)).chars))) := by
  have hnd : (tree.map pk).Nodup := by
    obtain ⟨full, _, _, hn, keep, e, _⟩ := ht
    rw [e]; exact hn.filter _
  have key := showsOutline hF ht hD (lvl := fun k => ((tree.find? (fun s => pk s == k)).map depth).getD 0)
    (str := fun k => ((tree.find? (fun s => pk s == k)).map str).getD ⟨[], false⟩) (text := text)
    (by
      intro k hk n hn
      obtain ⟨r, hr, rfl⟩ := List.mem_map.1 hk
      simp only [find_key hnd hr, Option.map_some, Option.getD_some]
      exact levels_agree hu (hl r hr) hn)
    (by
      intro k hk
      obtain ⟨r, hr, rfl⟩ := List.mem_map.1 hk
      simp only [find_key hnd hr, Option.map_some, Option.getD_some]
      exact hs r hr) top
  rw [List.filter_map, List.map_map] at key
  have e1 : (tree.filter ((fun k => !decide (k ∈ branch)) ∘ pk)) = tree.filter (fun r => decide (pk r ∉ branch)) := by
    apply List.filter_congr
    intro r _
    simp
  rw [e1] at key
  have e2 := List.map_congr_left (l := tree.filter (fun r => decide (pk r ∉ branch)))
    (f := (fun k => (some k, (labelFromInstance (((((tree.find? (fun s => pk s == k)).map depth).getD 0 : Nat)) : Int) (((tree.find? (fun s => pk s == k)).map str).getD ⟨[], false⟩)).chars)) ∘ pk)
    (g := fun r => (some (pk r), (labelFromInstance ((depth r : Nat) : Int) (str r)).chars))
    (by
      intro r hr
      simp only [Function.comp_apply, find_key hnd (List.mem_of_mem_filter hr), Option.map_some, Option.getD_some])
  rw [e2] at key
  exact key

/-! ### Reading the indentation from the text -/

theorem leading {n : Nat} {t : List Char} (h : t.head? ≠ some nbsp) : ((List.replicate n nbsp ++ t).takeWhile (fun c => c == nbsp)).length = n := by
  induction n with
  | zero =>
    cases t with
    | nil => rfl
    | cons c t =>
      have : c ≠ nbsp := fun e => h (by rw [e]; rfl)
      rw [List.replicate_zero, List.nil_append, List.takeWhile_cons_of_neg (by simpa using this)]; rfl
  | succ n ih => rw [List.replicate_succ, List.cons_append, List.takeWhile_cons_of_pos (by simp), List.length_cons, ih]

/-- **The list determines the tree**: two forests shown by the same choices are the same, if no text begins with a non-breaking space. -/
theorem ShowsOutline.determines {F G : Forest} {text text' : Nat → List Char} (hn : ∀ k, (text k).head? ≠ some nbsp) (hn' : ∀ k, (text' k).head? ≠ some nbsp)
    {L : List (Option Nat × List Char)} (h : ShowsOutline F text L) (h' : ShowsOutline G text' L) : F = G := by
  obtain ⟨top, O, html, e, d1, d2, hr, d3, hd⟩ := h
  obtain ⟨top', O', html', e', d1', d2', hr', d3', hd'⟩ := h'
  rw [← hr, ← hr']
  rw [e] at e'
  have e2 := (List.cons.inj e').2
  clear e e' hr hr' d1 d2 d3 d1' d2' d3'
  suffices O = O' by rw [this]
  induction O generalizing O' with
  | nil =>
    cases O' with
    | nil => rfl
    | cons a O' => simp at e2
  | cons a O ih =>
    cases O' with
    | nil => simp at e2
    | cons b O' =>
      simp only [List.map_cons, List.cons.injEq, Prod.mk.injEq, Option.some.injEq] at e2
      obtain ⟨⟨e1, eh⟩, er⟩ := e2
      have ha := hd a (by simp)
      rw [eh] at ha
      have hu := ha.unique (hd' b (by simp))
      have hlen := congrArg (fun t => (t.takeWhile (fun c => c == nbsp)).length) hu
      simp only [leading (hn _), leading (hn' _)] at hlen
      have : a = b := Prod.ext e1 (by omega)
      rw [this, ih (fun q hq => hd q (by simp [hq])) O' (fun q hq => hd' q (by simp [hq])) er]

end Verif
