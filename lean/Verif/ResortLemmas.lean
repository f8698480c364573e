/-
Sorting siblings anew by moving each of them to its sorted place.
-/
import Verif.SpecResort
import Verif.SpecBehind

namespace Verif

variable {ob : List (Nat × Bool)} {v : Nat → Vals} {l : List Nat} {x : Nat} {s : Slot}

theorem keyLt_of_le_of_lt {a b c : Vals} (ha : NonNull ob a) (hb : NonNull ob b) (hc : NonNull ob c) (h : ¬ keyLt ob b a) (h' : keyLt ob b c) : keyLt ob a c := by
  by_contra hn
  exact h (keyLt_of_lt_of_le hb hc ha h' hn)

theorem pair_sublist_asymm {a b : Nat} (hn : l.Nodup) (h : [a, b].Sublist l) : ¬ [b, a].Sublist l := by
  induction l with
  | nil => cases h
  | cons c l ih =>
    rw [List.nodup_cons] at hn
    intro h'
    cases h with
    | cons _ h =>
      cases h' with
      | cons _ h' => exact ih hn.2 h h'
      | cons_cons _ h' => exact hn.1 (h.subset (by simp))
    | cons_cons _ h =>
      cases h' with
      | cons _ h' => exact hn.1 (h'.subset (by simp))
      | cons_cons _ h' => exact hn.1 (h.subset (by simp))

theorem pair_sublist_last {a b x : Nat} (hx : x ∉ l) (h : [a, b].Sublist (l ++ [x])) : a ≠ x ∧ (b ≠ x → [a, b].Sublist l) := by
  obtain ⟨l₁, l₂, e, h1, h2⟩ := List.sublist_append_iff.1 h
  have hl : l₂ = [] ∨ l₂ = [x] := by
    cases h2 with
    | cons _ h => exact Or.inl (by cases h; rfl)
    | cons_cons _ h => exact Or.inr (by cases h; rfl)
  rcases hl with rfl | rfl
  · rw [List.append_nil] at e
    subst e
    exact ⟨fun e => hx (h1.subset (by simp [e])), fun _ => h1⟩
  · have : l₁ = [a] ∧ x = b := by
      rcases l₁ with _ | ⟨c, _ | ⟨d, l₁⟩⟩
      · simp at e
      · simp at e; exact ⟨by rw [e.1], e.2.symm⟩
      · simp at e
    obtain ⟨rfl, rfl⟩ := this
    exact ⟨fun e => hx (h1.subset (by simp [e])), fun e => absurd rfl e⟩

/-- what putting `x` before the first greater one of its siblings does to their order -/
structure SetIn (ob : List (Nat × Bool)) (v : Nat → Vals) (x : Nat) (l l' : List Nat) : Prop where
  perm : l'.Perm l
  keep : ∀ a b, a ≠ x → b ≠ x → [a, b].Sublist l → [a, b].Sublist l'
  less : ∀ b ∈ l, keyLt ob (v x) (v b) → [x, b].Sublist l'
  more : ∀ a ∈ l, a ≠ x → ¬ keyLt ob (v x) (v a) → (∀ g ∈ l, keyLt ob (v x) (v g) → [a, g].Sublist l) → [a, x].Sublist l'

theorem setIn_of (hob : ob ≠ []) (hn : NonNull ob (v x)) (hnd : l.Nodup) (hx : x ∈ l) (h : FirstBehind ob v (v x) (l.filter (· ≠ x)) s) :
    SetIn ob v x l (s.ins x (l.filter (· ≠ x))) := by
  have hb : ∀ a, Behind ob (v x) (v a) ↔ keyLt ob (v x) (v a) := fun a => behind_nonNull hob hn
  have hnd' : (l.filter (· ≠ x)).Nodup := hnd.filter _
  have hperm : (x :: l.filter (· ≠ x)).Perm l := by
    have := List.perm_cons_erase hx
    rw [hnd.erase_eq_filter] at this
    refine (List.Perm.trans (List.Perm.of_eq ?_) this.symm)
    rw [List.filter_congr (p := (· ≠ x)) (q := (· != x)) (fun a _ => by by_cases e : a = x <;> simp [e])]
  have hkeep : ∀ {a b}, a ≠ x → b ≠ x → [a, b].Sublist l → [a, b].Sublist (l.filter (· ≠ x)) := by
    intro a b ha hb h
    have := h.filter (· ≠ x)
    rwa [List.filter_eq_self.2 (by simp [ha, hb])] at this
  have hmem : ∀ {a}, a ∈ l → a ≠ x → a ∈ l.filter (· ≠ x) := fun ha hne => List.mem_filter.2 ⟨ha, by simpa using hne⟩
  have hnx : ∀ {a}, keyLt ob (v x) (v a) → a ≠ x := by
    rintro a h rfl
    exact keyLt_irrefl _ h
  rcases h with ⟨l₁, z, l₂, e, h1, h2, rfl⟩ | ⟨h1, rfl⟩
  · have hz1 : z ∉ l₁ := by
      rw [e, List.nodup_append] at hnd'
      exact fun hm => hnd'.2.2 z hm z (by simp) rfl
    have hins : (Slot.before z).ins x (l.filter (· ≠ x)) = l₁ ++ x :: z :: l₂ := by
      rw [e]; exact insertBefore_append hz1
    rw [hins]
    refine ⟨?_, ?_, ?_, ?_⟩
    · refine List.Perm.trans ?_ hperm
      rw [e]
      exact List.perm_middle
    · intro a b ha hb h
      refine (hkeep ha hb h).trans ?_
      rw [e]
      exact (List.Sublist.refl _).append (List.sublist_cons_self _ _)
    · intro b hbl hlt
      have := hmem hbl (hnx hlt)
      rw [e, List.mem_append] at this
      rcases this with h | h
      · exact absurd ((hb b).2 hlt) (h1 b h)
      · exact (List.Sublist.cons_cons x (List.singleton_sublist.2 h)).trans (List.sublist_append_right _ _)
    · intro a hal hne hle hg
      have := hmem hal hne
      rw [e, List.mem_append] at this
      rcases this with h | h
      · exact (List.singleton_sublist.2 h).append (List.Sublist.cons_cons x (List.nil_sublist _))
      · exfalso
        rcases List.mem_cons.1 h with rfl | h
        · exact hle ((hb a).1 h2)
        · have hzl : z ∈ l := (List.mem_filter.1 (show z ∈ l.filter (· ≠ x) by rw [e]; simp)).1
          have h3 := hkeep hne (hnx ((hb z).1 h2)) (hg z hzl ((hb z).1 h2))
          refine pair_sublist_asymm hnd' h3 ?_
          rw [e]
          exact (List.Sublist.cons_cons z (List.singleton_sublist.2 h)).trans (List.sublist_append_right _ _)
  · change SetIn ob v x l (l.filter (· ≠ x) ++ [x])
    refine ⟨?_, ?_, ?_, ?_⟩
    · exact (List.perm_append_singleton _ _).trans hperm
    · exact fun a b ha hb h => (hkeep ha hb h).trans (List.sublist_append_left _ _)
    · intro b hbl hlt
      exact absurd ((hb b).2 hlt) (h1 b (hmem hbl (hnx hlt)))
    · exact fun a hal hne _ _ => (List.singleton_sublist.2 (hmem hal hne)).append (List.Sublist.refl [x])

/-! ### The loop -/

/-- the state of the sorting after the nodes `done` -/
structure Sorting (ob : List (Nat × Bool)) (v : Nat → Vals) (done : List Nat) (F G : Forest) : Prop where
  same : ∀ p, (G p).Perm (F p)
  order : ∀ p, ∀ a ∈ G p, ∀ b ∈ G p, a ∈ done → (keyLt ob (v a) (v b) ∨ (b ∈ done ∧ ¬ keyLt ob (v b) (v a) ∧ [a, b].Sublist done)) → [a, b].Sublist (G p)
  others : ∀ p, (∀ x ∈ F p, x ∉ done) → G p = F p

/-- the nodes still to be moved stand before those that have been -/
def Waiting (done : List Nat) (G : Forest) : Prop := ∀ p, ∀ a ∈ G p, ∀ b ∈ G p, a ∉ done → b ∈ done → [a, b].Sublist (G p)

theorem Sorting.nil (F : Forest) : Sorting ob v [] F F := ⟨fun _ => .refl _, by simp, fun _ _ => rfl⟩

theorem Waiting.nil (F : Forest) : Waiting [] F := by simp [Waiting]

/-- a forest whose groups have no node twice and no node in common -/
structure Groups (F : Forest) : Prop where
  nodup : ∀ p, (F p).Nodup
  unique : ∀ p q x, x ∈ F p → x ∈ F q → p = q

variable {F G : Forest} {done : List Nat} {p : Option Nat}

theorem Groups.of_perm (h : Groups F) (hs : ∀ p, (G p).Perm (F p)) : Groups G :=
  ⟨fun p => (hs p).nodup_iff.2 (h.nodup p), fun p q x hp hq => h.unique p q x ((hs p).mem_iff.1 hp) ((hs q).mem_iff.1 hq)⟩

theorem move_other (hg : Groups G) (hx : x ∈ G p) {q : Option Nat} (hq : q ≠ p) : G.move x p s q = G q := by
  unfold Forest.move Forest.put Forest.remove
  rw [if_neg hq]
  refine List.filter_eq_self.2 ?_
  intro a ha
  simp only [ne_eq, decide_not, Bool.not_eq_eq_eq_not, Bool.not_true, decide_eq_false_iff_not]
  rintro rfl
  exact hq (hg.unique q p a ha hx)

theorem move_here : G.move x p s p = s.ins x ((G p).filter (· ≠ x)) := by
  unfold Forest.move Forest.put Forest.remove
  rw [if_pos rfl]

theorem Sorting.step (h : Sorting ob v done F G) (hg : Groups F) (hob : ob ≠ []) (hn : ∀ p, ∀ k ∈ F p, NonNull ob (v k)) (hx : x ∈ G p) (hd : x ∉ done)
    (hs : FirstBehind ob v (v x) (G.remove x p) s) : Sorting ob v (done ++ [x]) F (G.move x p s) ∧ SetIn ob v x (G p) (G.move x p s p) := by
  have hgG := hg.of_perm h.same
  have hnn : ∀ q, ∀ k ∈ G q, NonNull ob (v k) := fun q k hk => hn q k ((h.same q).mem_iff.1 hk)
  have hset : SetIn ob v x (G p) (G.move x p s p) := by
    rw [move_here]
    exact setIn_of hob (hnn p x hx) (hgG.nodup p) hx hs
  refine ⟨⟨?_, ?_, ?_⟩, hset⟩
  · intro q
    by_cases hq : q = p
    · subst hq; exact hset.perm.trans (h.same q)
    · rw [move_other hgG hx hq]; exact h.same q
  · intro q a ha b hb had hab
    by_cases hq : q = p
    · subst hq
      have ha' := hset.perm.mem_iff.1 ha
      have hb' := hset.perm.mem_iff.1 hb
      by_cases hax : a = x
      · subst hax
        rcases hab with hab | ⟨_, _, hab⟩
        · exact hset.less b hb' hab
        · exact absurd rfl (pair_sublist_last hd hab).1
      · have had' : a ∈ done := by simpa [hax] using had
        by_cases hbx : b = x
        · subst hbx
          have hle : ¬ keyLt ob (v b) (v a) := by
            rcases hab with hab | ⟨_, hab, _⟩
            · exact keyLt_asymm hab
            · exact hab
          refine hset.more a ha' hax hle ?_
          intro g hgl hlt
          exact h.order q a ha' g hgl had' (Or.inl (keyLt_of_le_of_lt (hnn q a ha') (hnn q b hx) (hnn q g hgl) hle hlt))
        · refine hset.keep a b hax hbx (h.order q a ha' b hb' had' ?_)
          rcases hab with hab | ⟨hbd, hab, hsub⟩
          · exact Or.inl hab
          · exact Or.inr ⟨by simpa [hbx] using hbd, hab, (pair_sublist_last hd hsub).2 hbx⟩
    · rw [move_other hgG hx hq] at ha hb ⊢
      have hne : ∀ {c}, c ∈ G q → c ≠ x := by
        rintro c hc rfl
        exact hq (hgG.unique q p c hc hx)
      refine h.order q a ha b hb (by simpa [hne ha] using had) ?_
      rcases hab with hab | ⟨hbd, hab, hsub⟩
      · exact Or.inl hab
      · exact Or.inr ⟨by simpa [hne hb] using hbd, hab, (pair_sublist_last hd hsub).2 (hne hb)⟩
  · intro q hq
    have hqp : q ≠ p := by
      rintro rfl
      exact hq x ((h.same q).mem_iff.1 hx) (by simp)
    rw [move_other hgG hx hqp]
    exact h.others q (fun y hy hyd => hq y hy (by simp [hyd]))

theorem Waiting.step (h : Waiting done G) (hgG : Groups G) (hset : SetIn ob v x (G p) (G.move x p s p)) (hx : x ∈ G p)
    (hdesc : ∀ a ∈ G p, a ∉ done → ¬ keyLt ob (v x) (v a)) : Waiting (done ++ [x]) (G.move x p s) := by
  intro q a ha b hb had hbd
  rw [List.mem_append, not_or, List.mem_singleton] at had
  by_cases hq : q = p
  · subst hq
    have ha' := hset.perm.mem_iff.1 ha
    have hb' := hset.perm.mem_iff.1 hb
    by_cases hbx : b = x
    · subst hbx
      refine hset.more a ha' had.2 (hdesc a ha' had.1) ?_
      intro g hgl hlt
      by_cases hgd : g ∈ done
      · exact h q a ha' g hgl had.1 hgd
      · exact absurd hlt (hdesc g hgl hgd)
    · exact hset.keep a b had.2 hbx (h q a ha' b hb' had.1 (by simpa [hbx] using hbd))
  · rw [move_other hgG hx hq] at ha hb ⊢
    have hne : b ≠ x := by
      rintro rfl
      exact hq (hgG.unique q p b hb hx)
    exact h q a ha b hb had.1 (by simpa [hne] using hbd)

/-- in a list without repetitions, two elements stand one way or the other -/
theorem pair_or {l : List Nat} {a b : Nat} (ha : a ∈ l) (hb : b ∈ l) (hne : a ≠ b) : [a, b].Sublist l ∨ [b, a].Sublist l := by
  induction l with
  | nil => cases ha
  | cons c l ih =>
    rcases List.mem_cons.1 ha with rfl | ha'
    · rcases List.mem_cons.1 hb with rfl | hb'
      · exact absurd rfl hne
      · exact Or.inl (List.Sublist.cons_cons _ (List.singleton_sublist.2 hb'))
    · rcases List.mem_cons.1 hb with rfl | hb'
      · exact Or.inr (List.Sublist.cons_cons _ (List.singleton_sublist.2 ha'))
      · exact (ih ha' hb').imp (List.Sublist.cons _) (List.Sublist.cons _)

theorem pairwise_of_sublists {R : Nat → Nat → Prop} {l : List Nat} (h : ∀ a b, [a, b].Sublist l → R a b) : l.Pairwise R := by
  rw [List.pairwise_iff_forall_sublist]
  exact fun hab => h _ _ hab

/-- at the end the groups are sorted -/
theorem Sorting.resorted (h : Sorting ob v done F G) (hg : Groups F) : Forest.Resorted ob v done F G := by
  refine ⟨h.same, ?_, h.others⟩
  intro p hall
  have hgG := hg.of_perm h.same
  refine pairwise_of_sublists ?_
  intro a b hab
  have ha : a ∈ G p := hab.subset (by simp)
  have hb : b ∈ G p := hab.subset (by simp)
  have had := hall a ((h.same p).mem_iff.1 ha)
  have hbd := hall b ((h.same p).mem_iff.1 hb)
  have hne : a ≠ b := by
    rintro rfl
    exact pair_sublist_asymm (hgG.nodup p) hab hab
  by_cases hlt : keyLt ob (v a) (v b)
  · exact Or.inl hlt
  right
  have hle : ¬ keyLt ob (v b) (v a) := fun hc => pair_sublist_asymm (hgG.nodup p) hab (h.order p b hb a ha hbd (Or.inl hc))
  refine ⟨hle, ?_⟩
  rcases pair_or had hbd hne with hs | hs
  · exact hs
  · exact absurd (h.order p b hb a ha hbd (Or.inr ⟨had, hlt, hs⟩)) (pair_sublist_asymm (hgG.nodup p) hab)

end Verif
