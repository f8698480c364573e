/-
Tables of paths rewritten by an injection that commutes with taking the parent.
-/
import Verif.PathDesc

namespace Verif

set_option linter.unusedSectionVars false

variable {ρ κ : Type} [LinearOrder κ] {L : Nat} {pk : ρ → Nat} {path : ρ → List κ} {T : List ρ}

/-- a rewriting of paths that keeps the parent relation -/
structure PathMap (L : Nat) (g : List κ → List κ) : Prop where
  inj : ∀ p q, g p = g q → p = q
  pp : ∀ p, L ∣ p.length → pp L (g p) = g (pp L p)
  len : ∀ p, (g p).length = p.length

section

variable {g : List κ → List κ} {f : ρ → ρ} (h : PathInv L pk path T) (hg : PathMap L g)
  (hfpk : ∀ r ∈ T, pk (f r) = pk r) (hfpath : ∀ r ∈ T, path (f r) = g (path r))

include h hg hfpk hfpath

theorem map_inv : PathInv L pk path (T.map f) := by
  have epk : (T.map f).map pk = T.map pk := by
    rw [List.map_map]; exact List.map_congr_left (fun r hr => hfpk r hr)
  have epath : (T.map f).map path = (T.map path).map g := by
    rw [List.map_map, List.map_map]; exact List.map_congr_left (fun r hr => hfpath r hr)
  refine ⟨by rw [epk]; exact h.pkNodup, ?_, ?_, ?_⟩
  · rw [epath]; exact h.pathNodup.map (fun a b e => hg.inj a b e)
  · intro r' hr'
    obtain ⟨r, hr, rfl⟩ := List.mem_map.1 hr'
    rw [hfpath r hr, hg.len]
    exact h.len r hr
  · intro r' hr' hl
    obtain ⟨r, hr, rfl⟩ := List.mem_map.1 hr'
    rw [hfpath r hr, hg.len] at hl
    obtain ⟨q, hq, e⟩ := h.closed r hr hl
    exact ⟨f q, List.mem_map_of_mem hq, by rw [hfpath q hq, hfpath r hr, hg.pp _ (h.len r hr).1, e]⟩

theorem map_pkAt (p : List κ) : pkAt pk path (T.map f) (g p) = pkAt pk path T p := by
  have h' := map_inv h hg hfpk hfpath
  ext k
  rw [pkAt_eq_some h', pkAt_eq_some h]
  constructor
  · rintro ⟨q', hq', e, hk⟩
    obtain ⟨q, hq, rfl⟩ := List.mem_map.1 hq'
    rw [hfpath q hq] at e
    exact ⟨q, hq, hg.inj _ _ e, by rw [← hfpk q hq, hk]⟩
  · rintro ⟨q, hq, e, hk⟩
    exact ⟨f q, List.mem_map_of_mem hq, by rw [hfpath q hq, e], by rw [hfpk q hq, hk]⟩

theorem map_parOf {r : ρ} (hr : r ∈ T) : parOf L pk path (T.map f) (f r) = parOf L pk path T r := by
  unfold parOf
  rw [hfpath r hr, hg.pp _ (h.len r hr).1, map_pkAt h hg hfpk hfpath]

theorem map_mem {k : Nat} {p : Option Nat} : k ∈ pforest L pk path (T.map f) p ↔ k ∈ pforest L pk path T p := by
  have h' := map_inv h hg hfpk hfpath
  rw [mem_pforest h', mem_pforest h]
  constructor
  · rintro ⟨q', hq', e, hk⟩
    obtain ⟨q, hq, rfl⟩ := List.mem_map.1 hq'
    rw [map_parOf h hg hfpk hfpath hq] at e
    exact ⟨q, hq, e, by rw [← hfpk q hq, hk]⟩
  · rintro ⟨q, hq, e, hk⟩
    exact ⟨f q, List.mem_map_of_mem hq, by rw [map_parOf h hg hfpk hfpath hq, e], by rw [hfpk q hq, hk]⟩

theorem map_forest (hlt : ∀ r ∈ T, ∀ q ∈ T, Verif.pp L (path r) = Verif.pp L (path q) → path r < path q → g (path r) < g (path q))
    (hL : 0 < L) : pforest L pk path (T.map f) = pforest L pk path T := by
  have h' := map_inv h hg hfpk hfpath
  have hF2 := (shows_pforest h').pullback (· ∈ T) f (fun r' => by simp [List.mem_map]) (fun a b ha hb e => by
    simp only [hfpk a ha, hfpk b hb] at e; exact h.pk_inj ha hb e)
  have hF3 : Shows (pforest L pk path (T.map f)) (· ∈ T) pk (parOf L pk path T) (fun a b => g (path a) < g (path b)) := by
    constructor
    intro p
    obtain ⟨l, e, so, m⟩ := hF2.lists p
    have hm : ∀ r ∈ l, r ∈ T := fun r hr => ((m r).1 hr).1
    refine ⟨l, ?_, ?_, ?_⟩
    · rw [e]
      exact List.map_congr_left (fun r hr => hfpk r (hm r hr))
    · refine so.imp_of_mem ?_
      intro a b ha hb hab
      rwa [hfpath a (hm a ha), hfpath b (hm b hb)] at hab
    · intro r
      rw [m]
      constructor
      · rintro ⟨hr, e⟩; exact ⟨hr, by rw [map_parOf h hg hfpk hfpath hr] at e; exact e⟩
      · rintro ⟨hr, e⟩; exact ⟨hr, by rw [map_parOf h hg hfpk hfpath hr]; exact e⟩
  refine hF3.unique ((shows_pforest h).congr (fun _ => Iff.rfl) (fun _ _ => rfl) ?_) (fun _ _ _ _ hab => plt_asymm hab)
  intro r q hr hq e hrq
  refine hlt r hr q hq ?_ hrq
  have hpar : (Verif.pp L (path q)).length = 0 ∨ ∃ z ∈ T, path z = Verif.pp L (path q) := by
    by_cases hl : L < (path q).length
    · exact Or.inr (h.closed q hq hl)
    · left; rw [pp_length]; omega
  exact pp_of_par h hL hr hpar e

end

end Verif
