/-
C90: the form's list of nodes shows the tree.
-/
import Verif.OutlineLemmas
import Verif.Props.Annotated
import Verif.Props.AdminSearch
import Verif.Props.ALForm
import Verif.Props.LTForm
import Verif.Props.NSForm
import Verif.Props.MPForm

namespace Verif

namespace MP

variable {cfg : Cfg} {db : DB}

/-- **C90 for MP.** For every consistent tree and every edited node (or none), whatever the texts of the nodes are (`text` is what should be read, `str` the string the model returns, escaped
or not): the choices show the forest without the branch of the edited node. -/
theorem C90_mp (hok : cfg.Ok) (h : Consistent cfg db) {inst : Option Row} (hi : ∀ x, inst = some x → x ∈ db.rows) {str : Row → Text} {text : Nat → List Char}
    (hs : ∀ r ∈ db.rows, (str r).Means (text r.pk)) {D : Nat → Bool} (hD : InBranch (forest cfg db) (inst.map Row.pk) D) :
    ShowsOutline ((forest cfg db).prune D) text (formChoices db str inst) ∧ (formChoices db str inst).head? = some (none, "-- root --".toList) := by
  refine ⟨?_, rfl⟩
  have hF := isForestOn_forest hok h
  have ht := C11_mp hok h (p := none) (by simp) none
  have hb : InBranch (forest cfg db) (inst.map Row.pk) (fun k => decide (k ∈ (match inst with | none => [] | some x => (descendants db x true none).map Row.pk))) := by
    intro k
    rw [decide_eq_true_iff]
    cases inst with
    | none => simp
    | some x =>
      have := (C11_mp hok h (p := some x) (by rintro q e; cases e; exact hi x rfl) none).mem_branch k
      simp only [Option.map_some, Option.some.injEq, exists_eq_left']
      exact this
  have e : D = fun k => decide (k ∈ (match inst with | none => [] | some x => (descendants db x true none).map Row.pk)) := by
    funext k
    rw [Bool.eq_iff_iff, hD k, hb k]
  rw [e]
  exact showsOutline_rows (depth := fun r => r.depth) hF ht hb (fun r hr => by
    rw [forest_eq ((consistent_iff hok).1 h) hok]
    exact level_exists ((consistent_iff hok).1 h).toPInv hok (getTree_sub r hr)) (fun _ _ _ h1 h2 => parent_unique hok h h1 h2) (fun r hr => hs r (getTree_sub r hr)) rootLabel

/-- texts for the examples: the node 2 is called `a<b`, the others are safe strings -/
def exStr (k : Nat) : Text := if k = 2 then ⟨"a<b".toList, false⟩ else ⟨"x&amp;y".toList, true⟩

def exText (k : Nat) : List Char := if k = 2 then "a<b".toList else "x&y".toList

theorem exStr_means (k : Nat) : (exStr k).Means (exText k) := by
  unfold exStr exText
  by_cases hk : k = 2
  · rw [if_pos hk, if_pos hk]; rfl
  · rw [if_neg hk, if_neg hk]
    exact .char (by decide) (.amp (.char (by decide) .nil))

/-- the node 3 is edited: 3 and 4, which is below it, are not offered -/
example : InBranch (forest exCfg exDB) (some 3) (fun k => k == 3 || k == 4) →
    ShowsOutline ((forest exCfg exDB).prune (fun k => k == 3 || k == 4)) exText (formChoices exDB (fun r => exStr r.pk) (some ⟨3, [49, 51], 2, 1, []⟩)) :=
  fun hD => (C90_mp exCfg_ok exDB_consistent (inst := some ⟨3, [49, 51], 2, 1, []⟩) (by rintro x ⟨⟩; decide) (fun r _ => exStr_means r.pk) hD).1

example : formChoices exDB (fun r => exStr r.pk) (some ⟨3, [49, 51], 2, 1, []⟩) =
    [(none, "-- root --".toList), (some 1, "x&amp;y".toList), (some 2, "&nbsp;&nbsp;&nbsp;&nbsp;a&lt;b".toList), (some 5, "x&amp;y".toList)] := by decide

example : ShowsOutline ((forest exCfg exDB).prune (fun _ => false)) exText (formChoices exDB (fun r => exStr r.pk) none) :=
  (C90_mp exCfg_ok exDB_consistent (inst := none) (by simp) (fun r _ => exStr_means r.pk) (fun k => by simp)).1

end MP

namespace NS

variable {db : DB}

/-- **C90 for NS.** -/
theorem C90_ns (h : Consistent db) {inst : Option Row} (hi : ∀ x, inst = some x → x ∈ db.rows) {str : Row → Text} {text : Nat → List Char}
    (hs : ∀ r ∈ db.rows, (str r).Means (text r.pk)) {D : Nat → Bool} (hD : InBranch (forest db) (inst.map Row.pk) D) :
    ShowsOutline ((forest db).prune D) text (formChoices db str inst) ∧ (formChoices db str inst).head? = some (none, "-- root --".toList) := by
  refine ⟨?_, rfl⟩
  have hF := isForestOn h
  have ht := C11_ns h (p := none) (by simp) none (by simp)
  have hb : InBranch (forest db) (inst.map Row.pk) (fun k => decide (k ∈ (match inst with | none => [] | some x => (descendants db x true none).map Row.pk))) := by
    intro k
    rw [decide_eq_true_iff]
    cases inst with
    | none => simp
    | some x =>
      have := (C11_ns h (p := some x) (by rintro q e; cases e; exact hi x rfl) none (by simp)).mem_branch k
      simp only [Option.map_some, Option.some.injEq, exists_eq_left']
      exact this
  have e : D = fun k => decide (k ∈ (match inst with | none => [] | some x => (descendants db x true none).map Row.pk)) := by
    funext k
    rw [Bool.eq_iff_iff, hD k, hb k]
  rw [e]
  have hlev : ∀ r ∈ getTree db none none, ∃ n : Nat, r.depth = n ∧ (forest db).Level r.pk n := by
    intro r hr
    rw [forest_eq h.toNI]
    exact level_depth h.toNI (getTree_sub r hr)
  have key := showsOutline_rows (depth := fun r => r.depth.toNat) hF ht hb (fun r hr => by
    obtain ⟨n, e, hl⟩ := hlev r hr
    rw [e]; exact hl) (fun _ _ _ h1 h2 => parent_unique h h1 h2) (fun r hr => hs r (getTree_sub r hr)) rootLabel
  have e2 : formChoices db str inst = (none, rootLabel) :: ((getTree db none none).filter (fun r => decide (r.pk ∉ (match inst with | none => [] | some x => (descendants db x true none).map Row.pk)))).map
      (fun r => (some r.pk, (labelFromInstance ((r.depth.toNat : Nat) : Int) (str r)).chars)) := by
    show (none, rootLabel) :: _ = _
    congr 1
    apply List.map_congr_left
    intro r hr
    obtain ⟨n, e, _⟩ := hlev r (List.mem_of_mem_filter hr)
    rw [e]; rfl
  rw [e2]
  exact key

example : ShowsOutline ((forest exDB).prune (fun _ => false)) MP.exText (formChoices exDB (fun r => MP.exStr r.pk) none) :=
  (C90_ns exDB_inv (inst := none) (by simp) (fun r _ => MP.exStr_means r.pk) (fun k => by simp)).1

end NS

namespace LT

variable {db : DB}

/-- **C90 for LT.** -/
theorem C90_lt (h : Consistent db) {inst : Option Row} (hi : ∀ x, inst = some x → x ∈ db.rows) {str : Row → Text} {text : Nat → List Char}
    (hs : ∀ r ∈ db.rows, (str r).Means (text r.pk)) {D : Nat → Bool} (hD : InBranch (forest db) (inst.map Row.pk) D) :
    ShowsOutline ((forest db).prune D) text (formChoices db str inst) ∧ (formChoices db str inst).head? = some (none, "-- root --".toList) := by
  refine ⟨?_, rfl⟩
  have hF := isForestOn h
  have ht := C11_lt h (p := none) (by simp) none (by simp)
  have hb : InBranch (forest db) (inst.map Row.pk) (fun k => decide (k ∈ (match inst with | none => [] | some x => (descendants db x true none).map Row.pk))) := by
    intro k
    rw [decide_eq_true_iff]
    cases inst with
    | none => simp
    | some x =>
      have := (C11_lt h (p := some x) (by rintro q e; cases e; exact hi x rfl) none (by simp)).mem_branch k
      simp only [Option.map_some, Option.some.injEq, exists_eq_left']
      exact this
  have e : D = fun k => decide (k ∈ (match inst with | none => [] | some x => (descendants db x true none).map Row.pk)) := by
    funext k
    rw [Bool.eq_iff_iff, hD k, hb k]
  rw [e]
  exact showsOutline_rows (depth := fun r => r.depth) hF ht hb (fun r hr => by
    rw [forest_eq h.inv.inv]
    exact level_exists h.inv.inv (getTree_sub r hr)) (fun _ _ _ h1 h2 => parent_unique h h1 h2) (fun r hr => hs r (getTree_sub r hr)) rootLabel

example : ShowsOutline ((forest exDB).prune (fun _ => false)) MP.exText (formChoices exDB (fun r => MP.exStr r.pk) none) :=
  (C90_lt (consistent_iff.2 exDB_inv) (inst := none) (by simp) (fun r _ => MP.exStr_means r.pk) (fun k => by simp)).1

end LT

namespace AL

variable {cfg : Cfg} {db : DB}

theorem choiceLabels_ok {F : Forest} (str : Row → Text) (hF : ∀ k ∈ F none, ∀ p, k ∉ F (some p)) : ∀ {l : List (Row × Int)}, (∀ e ∈ l, ∃ n : Nat, e.2 = n ∧ F.Level e.1.pk n ∧ (e.1.parent = none → e.1.pk ∈ F none)) →
    choiceLabels db str l = .ok (l.map (fun e => (some e.1.pk, (labelFromInstance ((e.2.toNat : Nat) : Int) (str e.1)).chars)))
  | [], _ => rfl
  | e :: l, hl => by
    obtain ⟨n, en, hlev, hroot⟩ := hl e (by simp)
    have hd : getDepth db e.1 (some e.2) = .ok ((e.2.toNat : Nat) : Int) := by
      unfold getDepth
      cases hp : e.1.parent with
      | some p => simp only; rw [en]; rfl
      | none =>
        have h1 := hroot hp
        have : n = 1 := by
          cases hlev with
          | root _ => rfl
          | child _ hm => exact absurd hm (hF _ h1 _)
        simp only [en, this]
        rfl
    rw [choiceLabels, hd]
    simp only
    rw [choiceLabels_ok str hF (fun q hq => hl q (by simp [hq]))]
    rfl

/-- **C90 for AL**: the `_cached_depth` of the edited object does not matter. -/
theorem C90_al (h : Wf cfg db) {inst : Option (Row × Option Int)} (hi : ∀ x, inst = some x → x.1 ∈ db.rows) {str : Row → Text} {text : Nat → List Char}
    (hs : ∀ r ∈ db.rows, (str r).Means (text r.pk)) {D : Nat → Bool} (hD : InBranch (forest cfg db) (inst.map (fun x => x.1.pk)) D) :
    ∃ L, formChoices cfg db str inst = .ok L ∧ ShowsOutline ((forest cfg db).prune D) text L := by
  have hai := h.ai
  have hF := isForestOn (cfg := cfg) hai
  obtain ⟨all, et, ht, hlev⟩ := C11_al h (p := none) (by simp) none (by simp)
  have hrows : ∀ e ∈ all, e.1 ∈ db.rows := by
    obtain ⟨L, eL, _, hq⟩ := treeRec_none (cfg := cfg) hai
    have : all = L := by
      have e2 : getTree cfg db none none = .ok L := by simpa [getTree] using eL
      have e3 : getTree cfg db none none = .ok all := et
      rw [e2] at e3
      exact (Except.ok.inj e3).symm
    subst this
    intro e he
    obtain ⟨l, hc, _⟩ := hq e he
    exact hc.mem
  obtain ⟨below, eb, hb⟩ : ∃ below : List (Row × Int), (match inst with | none => .ok [] | some x => descendants cfg db x.1 x.2 true none) = Except.ok below ∧
      InBranch (forest cfg db) (inst.map (fun x => x.1.pk)) (fun k => decide (k ∈ below.map (fun b => b.1.pk))) := by
    cases inst with
    | none => exact ⟨[], rfl, fun k => by simp⟩
    | some x =>
      obtain ⟨l, hc⟩ := chain_exists hai (hi x rfl)
      obtain ⟨d, hd⟩ : ∃ d, getDepth db x.1 x.2 = .ok d := by
        cases hx : x.2 with
        | none => exact ⟨_, getDepth_spec hai hc⟩
        | some d =>
          unfold getDepth
          cases x.1.parent with
          | none => exact ⟨1, rfl⟩
          | some _ => exact ⟨d, rfl⟩
      obtain ⟨L, e, hdfs, _⟩ := getTree_some (cfg := cfg) hai hc hd
      refine ⟨(x.1, d) :: L, by simp only [descendants]; rw [show getTree cfg db (some (x.1, x.2)) none = _ from e]; rfl, fun k => ?_⟩
      have hm := hdfs.mem k
      rw [← forest_eq hai] at hm
      simp only [List.map_cons, decide_eq_true_iff, List.mem_cons, Option.map_some, Option.some.injEq, exists_eq_left']
      refine or_congr Iff.rfl (hm.trans ?_)
      constructor
      · rintro ⟨c, hc', rfl | hd'⟩
        · exact .child hc'
        · exact Forest.Desc.trans (.child hc') hd'
      · intro hd'
        exact hd'.cases_head
  have e : D = fun k => decide (k ∈ below.map (fun b => b.1.pk)) := by
    funext k
    rw [Bool.eq_iff_iff, hD k, hb k]
  rw [e]
  have hlab := choiceLabels_ok (db := db) (F := forest cfg db) str (fun k hk p hp => by
      rw [forest_eq hai] at hk hp
      cases PF_parent_unique hai hk hp)
    (l := all.filter (fun e => decide (e.1.pk ∉ below.map (fun b => b.1.pk))))
    (fun q hq => by
      obtain ⟨n, en, hl⟩ := hlev q (List.mem_of_mem_filter hq)
      refine ⟨n, en, hl, fun hp => ?_⟩
      rw [forest_eq hai]
      exact mem_PF.2 ⟨q.1, hrows q (List.mem_of_mem_filter hq), hp, rfl⟩)
  refine ⟨_, ?_, showsOutline_rows (pk := fun e : Row × Int => e.1.pk) (depth := fun e => e.2.toNat) (str := fun e => str e.1) hF ht hb (fun q hq => by
    obtain ⟨n, en, hl⟩ := hlev q hq
    rw [en]; exact hl) (fun _ _ _ h1 h2 => by
      rw [forest_eq hai] at h1 h2
      exact PF_parent_unique hai h1 h2) (fun q hq => hs q.1 (hrows q hq)) dashLabel⟩
  unfold formChoices
  rw [show getTree cfg db none none = .ok all from et]
  cases inst with
  | none =>
    cases eb
    simp only
    rw [hlab]
  | some x =>
    simp only at eb ⊢
    rw [eb]
    simp only
    rw [hlab]

example : ∃ L, formChoices exPlain exDB (fun r => MP.exStr r.pk) none = .ok L ∧ ShowsOutline ((forest exPlain exDB).prune (fun _ => false)) MP.exText L :=
  C90_al (wf_of_ai exDB_inv.toAI) (inst := none) (by simp) (fun r _ => MP.exStr_means r.pk) (fun k => by simp)

/-- AL: the choice for no node is not called `-- root --`, as in the other kinds, but `--------`. -/
theorem C90_al_unnamed {str : Row → Text} {inst : Option (Row × Option Int)} {L : List (Option Nat × List Char)} (e : formChoices cfg db str inst = .ok L) :
    L.head? = some (none, "--------".toList) := by
  unfold formChoices at e
  split at e
  · cases e
  · dsimp only at e
    split at e
    · cases e
    · split at e
      · cases e
      · cases e; rfl

end AL

/-- **C90, the list determines the tree.** Two trees, of whatever kinds, whose forms show the same list are the same, if no text begins with a non-breaking space. -/
theorem C90_determines {F G : Forest} {text text' : Nat → List Char} (hn : ∀ k, (text k).head? ≠ some nbsp) (hn' : ∀ k, (text' k).head? ≠ some nbsp)
    {L : List (Option Nat × List Char)} (h : ShowsOutline F text L) (h' : ShowsOutline G text' L) : F = G := h.determines hn hn' h'

example : (MP.forest MP.exCfg MP.exDB).prune (fun _ => false) = (NS.forest NS.exDB).prune (fun _ => false) := by
  have h1 := (MP.C90_mp MP.exCfg_ok MP.exDB_consistent (inst := none) (by simp) (fun r _ => MP.exStr_means r.pk) (fun k => by simp) (D := fun _ => false)).1
  have h2 := (NS.C90_ns NS.exDB_inv (inst := none) (by simp) (fun r _ => MP.exStr_means r.pk) (fun k => by simp) (D := fun _ => false)).1
  have e : MP.formChoices MP.exDB (fun r => MP.exStr r.pk) none = NS.formChoices NS.exDB (fun r => MP.exStr r.pk) none := by decide
  rw [e] at h1
  refine C90_determines (fun k => ?_) (fun k => ?_) h1 h2 <;>
  · unfold MP.exText
    split <;> decide

/-- two roots -/
def MP.outFlat : MP.DB := ⟨[⟨1, [49], 1, 0, []⟩, ⟨2, [50], 1, 0, []⟩], []⟩

/-- a root and its child -/
def MP.outDeep : MP.DB := ⟨[⟨1, [49], 1, 1, []⟩, ⟨2, [49, 49], 2, 0, []⟩], []⟩

/-- Texts that begin with non-breaking spaces can be taken for indentation: the same list for two different trees. -/
theorem C90_text_indents : MP.Consistent MP.exCfg MP.outFlat ∧ MP.Consistent MP.exCfg MP.outDeep ∧
    MP.formChoices MP.outFlat (fun r => if r.pk = 2 then ⟨"&nbsp;&nbsp;&nbsp;&nbsp;x".toList, true⟩ else ⟨"x".toList, true⟩) none = MP.formChoices MP.outDeep (fun _ => ⟨"x".toList, true⟩) none ∧
    MP.forest MP.exCfg MP.outFlat ≠ MP.forest MP.exCfg MP.outDeep := by
  refine ⟨⟨by decide, by decide, by intro p; cases p <;> decide, by decide, by decide⟩, ⟨by decide, by decide, by intro p; cases p <;> decide, by decide, by decide⟩, by decide, fun e => ?_⟩
  have := congrFun e none
  revert this
  decide

/-- **C90, labels are escaped**: no label contains markup, whatever the texts are. -/
theorem C90_escaped {F : Forest} {text : Nat → List Char} {L : List (Option Nat × List Char)} (h : ShowsOutline F text L) : ∀ e ∈ L, e.1 ≠ none → '<' ∉ e.2 ∧ '>' ∉ e.2 ∧ '"' ∉ e.2 ∧ '\'' ∉ e.2 := by
  obtain ⟨top, O, html, rfl, _, _, _, _, hd⟩ := h
  intro e he hne
  rcases List.mem_cons.1 he with rfl | he
  · exact absurd rfl hne
  · obtain ⟨q, hq, rfl⟩ := List.mem_map.1 he
    exact (hd q hq).no_markup

end Verif
