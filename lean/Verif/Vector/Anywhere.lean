import Verif.Vector.Sim
set_option autoImplicit false
/-
Insertion into vectors of values at any position, whatever the constructors do: it ends without undefined behaviour; if it reports no
error, or if it is at the end, then it does what it is specified to do.
-/
namespace Nestl.VC
open Nestl.Vec
variable {V : Type} [ElemSize V] {w w' : W V} {σ : Sg V} {s : Ptr} {v : Vec V}

/-- Insertion leaves the memory of other vectors as it is, even if it breaks the vector. -/
theorem Inserted.frame {pos r : Nat} {x : V} (h : Inserted w σ s v pos x r w') (hst : St w.heap σ) (hs : σ s = some v)
    (he : w.err = none) (hpos : pos ≤ v.els.length) :
    ∀ q, q ≠ s → q ≠ v.start → w.heap q ≠ none → w'.heap q = w.heap q := by
  have hput : (pos = v.els.length ∨ (∀ k, w.nCtor ≤ k → w.env.ctor k = true) ∨ w'.err = none) →
      ∀ q, q ≠ s → q ≠ v.start → w.heap q ≠ none → w'.heap q = w.heap q := by
    intro hn
    obtain ⟨v', hp⟩ := h.put' hst hs he hpos hn
    exact hp.frame
  cases h with
  | refused _ h1 h2 h3 => exact (h2.put (pos := pos) (x := x) hst hs h1 he h3).frame
  | failed v1 w1 h1 h2 => exact h1.frame
  | broken v1 w1 j h1 h2 h3 h4 h5 =>
    intro q k1 k2 k3
    have h6 := (h1.relocated (hst.ok _ _ hs).len).2.1
    have k4 : q ≠ v1.start := by
      rcases h6 with h6 | h6
      · rw [h6]; exact k2
      · exact fun e => k3 (e ▸ h6)
    show upd w1.heap _ _ q = _
    rw [upd_other _ _ k4]
    exact h1.frame q k1 k2 k3
  | ok v1 w1 h' h1 h2 h3 h4 => exact hput (.inr (.inr h1.err))

/-- Insertion at any position. -/
theorem wp_insertAny (h : Inv w σ) (he : w.err = none) {i : Nat} {a : CArg V} (hs : σ s = some v) (ha : ArgOk w a)
    (hi : i ≤ v.els.length) (hf : Foreign s a ∨ Spare w s ∧ ∃ j, a = .elem s j ∧ j < i) :
    wp (exec (.insert s i a)) w fun r w' =>
      (i = v.els.length ∨ w'.err = none → FPost w σ (.insert s i a) r w') ∧
        ∀ q, q ≠ s → q ≠ v.start → w.heap q ≠ none → w'.heap q = w.heap q := by
  unfold exec; simp only [wp_bind]
  refine wp_evalArg h ha ?_
  intro b x hb hx _ href
  have hap := apart_insert h hs hf href
  refine wp_mono (wp_insertValue h.st he hs hi hb hap) ?_
  rintro r w' hins
  refine ⟨fun hn => ?_, Inserted.frame hins h.st hs he hi⟩
  obtain ⟨v', hp⟩ := hins.put' h.st hs he hi (hn.imp id .inr)
  refine FPost.mk' (h.set hs hp.st hp.adv.sp) hp.adv ⟨v.alloc, v.els, x, abs_some hs, hx, hi, ?_⟩
  by_cases h0 : w'.err = none
  · obtain ⟨h1, rfl⟩ := hp.ok h0
    rw [isSome_none h0, abs_upd, hp.alloc, h1]; simp
  · obtain ⟨h1, rfl⟩ := hp.bad h0
    rw [isSome_some h0, if_pos rfl]
    exact ⟨rfl, abs_same hs hp.alloc h1⟩

end Nestl.VC
