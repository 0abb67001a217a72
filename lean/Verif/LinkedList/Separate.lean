import Verif.LinkedList.Local
import Verif.LinkedList.Fixed
import Verif.LinkedList.Query
import Verif.LinkedList.Told
set_option autoImplicit false
/-
A call on lists is a matter of the objects it is about: nothing else has any influence on it, and it has no influence on anything
else.
-/
namespace Nestl.LC
open LL

section spec
variable {V : Type}

/-- The objects that a call is about. -/
def About : Call V → Ptr → Prop
  | .create _, _ => False
  | .insert s _ _, x | .insertN s _ _ _, x | .insertRange s _ _, x | .erase s _, x | .eraseRange s _ _, x | .pushBack s _, x
  | .pushFront s _, x | .popBack s, x | .popFront s, x | .clear s, x | .assignN s _ _, x | .assignVals s _, x | .move s, x
  | .sort _ s, x | .destroy s, x => x = s
  | .assignRange s t _ _, x | .copy s t, x | .moveAssign s t, x | .swap s t, x | .merge _ s t, x | .spliceAll s _ t, x
  | .spliceOne s _ t _, x | .spliceRange s _ t _ _, x => x = s ∨ x = t

/-- The memory cells of the objects that a call is about: the objects and their elements. -/
def CallCell (w : W V) (c : Call V) (p : Ptr) : Prop :=
  ∃ s L, About c s ∧ Alive w s ∧ Contents w s L ∧ (p = s ∨ ∃ v, (p, v) ∈ L)

/-- Calls that neither obtain memory nor create objects or elements. -/
def Frugal : Call V → Prop
  | .erase _ _ | .eraseRange _ _ _ | .popBack _ | .popFront _ | .clear _ | .swap _ _ | .merge _ _ _ | .spliceAll _ _ _
  | .spliceOne _ _ _ _ | .spliceRange _ _ _ _ _ | .destroy _ => True
  | _ => False

end spec

section
open Classical
variable {V : Type} {w : W V} {c : Call V} {σ : Sg V} {s : Ptr} {ls : Lst V}

theorem callCell_iff (h : Inv w σ) {p : Ptr} :
    CallCell w c p ↔ ∃ s ls, About c s ∧ σ s = some ls ∧ p ∈ cells s ls.els := by
  constructor
  · rintro ⟨s, L, h1, h2, h3, h4⟩
    obtain ⟨ls, hs⟩ := (alive_iff h).1 h2
    obtain rfl := (contents_iff h hs).1 h3
    refine ⟨s, ls, h1, hs, ?_⟩
    rcases h4 with rfl | ⟨v, hv⟩
    · simp [cells]
    · obtain ⟨e, he, h5⟩ := List.mem_map.1 hv
      cases h5
      simp [cells, mem_ptrs_of he]
  · rintro ⟨s, ls, h1, hs, hp⟩
    refine ⟨s, _, h1, (alive_iff h).2 ⟨ls, hs⟩, (contents_iff h hs).2 rfl, ?_⟩
    simp only [cells, List.mem_cons] at hp
    refine hp.imp_right fun hp => ?_
    obtain ⟨e, he, rfl⟩ := mem_ptrs.1 hp
    exact ⟨e.v, List.mem_map.2 ⟨e, he, rfl⟩⟩

theorem only_inv (h : Inv w σ) : Inv (w.only (CallCell w c)) fun p => if About c p then σ p else none := by
  have key : ∀ x lx, (if About c x then σ x else none) = some lx → σ x = some lx ∧
      ∀ p ∈ cells x lx.els, (w.only (CallCell w c)).heap p = w.heap p := by
    intro x lx hx
    split at hx
    · rename_i hc
      exact ⟨hx, fun p hp => if_pos ((callCell_iff h).2 ⟨x, lx, hc, hx, hp⟩)⟩
    · cases hx
  have sub : ∀ p, (w.only (CallCell w c)).heap p ≠ none → CallCell w c p ∧ w.heap p ≠ none := by
    intro p hp
    by_cases hS : CallCell w c p
    · refine ⟨hS, ?_⟩
      rw [show w.heap p = (w.only (CallCell w c)).heap p from (if_pos hS).symm]
      exact hp
    · exact absurd (if_neg hS) hp
  refine ⟨⟨?_, ?_, ?_, ?_, ?_, ?_⟩, ?_⟩
  · intro x lx hx
    obtain ⟨h1, h2⟩ := key x lx hx
    refine ⟨(h.st.hdr x lx h1).1, ?_⟩
    have := (h.st.hdr x lx h1).2
    simp only [dat] at this ⊢
    rw [h2 x (by simp [cells])]
    exact this
  · intro x lx hx
    obtain ⟨h1, h2⟩ := key x lx hx
    exact (h.st.ring x lx h1).congr fun p hp => h2 p hp
  · intro x lx hx e he
    obtain ⟨h1, h2⟩ := key x lx hx
    refine ⟨(h.st.el x lx h1 e he).1, ?_⟩
    have := (h.st.el x lx h1 e he).2
    simp only [dat] at this ⊢
    rw [h2 e.p (by simp [cells, mem_ptrs_of he])]
    exact this
  · intro x lx hx
    exact h.st.nodup x lx (key x lx hx).1
  · intro x y lx ly hx hy
    exact h.st.disj x y lx ly (key x lx hx).1 (key y ly hy).1
  · intro p hp
    obtain ⟨s, ls, h1, hs, hm⟩ := (callCell_iff h).1 (sub p (by rw [Ne, ← dat_none]; exact hp)).1
    simp only [cells, List.mem_cons] at hm
    rcases hm with rfl | hm
    · left; simp [h1, hs]
    · right; exact ⟨s, ls, by simp [h1, hs], hm⟩
  · intro i hi
    exact h.sp i (sub _ hi).2

theorem only_own (ho : Own σ) : Own (fun p => if About c p then σ p else none : Sg V) := by
  intro x lx hx
  simp only at hx
  split at hx
  · exact ho x lx hx
  · cases hx

theorem only_valid (h : Inv w σ) (hv : Valid w c) : Valid (w.only (CallCell w c)) c := by
  have h' := only_inv (c := c) h
  have tr : ∀ {s}, Alive w s → About c s → ∃ ls, σ s = some ls ∧ (fun p => if About c p then σ p else none) s = some ls := by
    intro s hs ha
    obtain ⟨ls, hs⟩ := (alive_iff h).1 hs
    exact ⟨ls, hs, by simp [ha, hs]⟩
  have al : ∀ {s}, Alive w s → About c s → Alive (w.only (CallCell w c)) s := by
    intro s hs ha
    obtain ⟨ls, -, h2⟩ := tr hs ha
    exact (alive_iff h').2 ⟨ls, h2⟩
  have ct : ∀ {s L}, Alive w s → About c s → (Contents (w.only (CallCell w c)) s L ↔ Contents w s L) := by
    intro s L hs ha
    obtain ⟨ls, h1, h2⟩ := tr hs ha
    rw [contents_iff h h1, contents_iff h' h2]
  have ac : ∀ {s a}, Alive w s → About c s → (HasAlloc (w.only (CallCell w c)) s a ↔ HasAlloc w s a) := by
    intro s L hs ha
    obtain ⟨ls, h1, h2⟩ := tr hs ha
    rw [hasAlloc_iff h h1, hasAlloc_iff h' h2]
  have ps : ∀ {s pos}, Alive w s → About c s → IsPos w s pos → IsPos (w.only (CallCell w c)) s pos := by
    rintro s pos hs ha ⟨X, Y, h1, h2⟩
    exact ⟨X, Y, (ct hs ha).2 h1, h2⟩
  have sm : ∀ {s t}, Alive w s → About c s → Alive w t → About c t → SameAlloc w s t →
      SameAlloc (w.only (CallCell w c)) s t := by
    rintro s t hs ha ht hb ⟨a, h1, h2⟩
    exact ⟨a, (ac hs ha).2 h1, (ac ht hb).2 h2⟩
  have as : ∀ {s}, Alive w s → About c s → Assignable w s → Assignable (w.only (CallCell w c)) s := by
    rintro s hs ha (h1 | h1)
    · exact .inl ((ac hs ha).2 h1)
    · exact .inr ((ct hs ha).2 h1)
  cases c with
  | create _ => trivial
  | insert s _ _ => exact ⟨al hv.1 rfl, ps hv.1 rfl hv.2⟩
  | insertN s _ _ _ => exact ⟨al hv.1 rfl, ps hv.1 rfl hv.2⟩
  | insertRange s _ _ => exact ⟨al hv.1 rfl, ps hv.1 rfl hv.2⟩
  | erase s _ => obtain ⟨a, X, v, Y, b⟩ := hv; exact ⟨al a rfl, X, v, Y, (ct a rfl).2 b⟩
  | eraseRange s _ _ => obtain ⟨a, X, M, Y, b, e⟩ := hv; exact ⟨al a rfl, X, M, Y, (ct a rfl).2 b, e⟩
  | pushBack s _ => exact al hv rfl
  | pushFront s _ => exact al hv rfl
  | popBack s => exact ⟨al hv.1 rfl, fun e => hv.2 ((ct hv.1 rfl).1 e)⟩
  | popFront s => exact ⟨al hv.1 rfl, fun e => hv.2 ((ct hv.1 rfl).1 e)⟩
  | clear s => exact al hv rfl
  | assignN s _ _ => exact ⟨al hv.1 rfl, as hv.1 rfl hv.2⟩
  | assignVals s _ => exact ⟨al hv.1 rfl, as hv.1 rfl hv.2⟩
  | assignRange s t _ _ =>
    obtain ⟨a, b, d, X, M, Y, e, g⟩ := hv
    exact ⟨al a (.inl rfl), al b (.inr rfl), as a (.inl rfl) d, X, M, Y, (ct b (.inr rfl)).2 e, g⟩
  | copy d s =>
    obtain ⟨a, b, e, g⟩ := hv
    exact ⟨al a (.inl rfl), al b (.inr rfl), as a (.inl rfl) e, g⟩
  | move s => exact al hv rfl
  | moveAssign s t =>
    obtain ⟨a, b, e⟩ := hv
    exact ⟨al a (.inl rfl), al b (.inr rfl), sm a (.inl rfl) b (.inr rfl) e⟩
  | swap s t =>
    obtain ⟨a, b, e⟩ := hv
    exact ⟨al a (.inl rfl), al b (.inr rfl), sm a (.inl rfl) b (.inr rfl) e⟩
  | merge _ s t =>
    obtain ⟨a, b, e, g⟩ := hv
    exact ⟨al a (.inl rfl), al b (.inr rfl), sm a (.inl rfl) b (.inr rfl) e, g⟩
  | spliceAll s _ t =>
    obtain ⟨a, b, e, g, i⟩ := hv
    exact ⟨al a (.inl rfl), al b (.inr rfl), sm a (.inl rfl) b (.inr rfl) e, g, ps a (.inl rfl) i⟩
  | spliceOne s _ t _ =>
    obtain ⟨a, b, e, g, X, v, Y, i⟩ := hv
    exact ⟨al a (.inl rfl), al b (.inr rfl), sm a (.inl rfl) b (.inr rfl) e, ps a (.inl rfl) g, X, v, Y, (ct b (.inr rfl)).2 i⟩
  | spliceRange s _ t _ _ =>
    obtain ⟨a, b, e, g⟩ := hv
    refine ⟨al a (.inl rfl), al b (.inr rfl), sm a (.inl rfl) b (.inr rfl) e, ?_⟩
    rcases g with ⟨g1, g2, X, M, Y, g3, g4⟩ | ⟨g1, X, M, Z, Y, g3, g4⟩
    · exact .inl ⟨g1, ps a (.inl rfl) g2, X, M, Y, (ct b (.inr rfl)).2 g3, g4⟩
    · exact .inr ⟨g1, X, M, Z, Y, (ct b (.inr rfl)).2 g3, g4⟩
  | sort _ s => obtain ⟨a, L, b, e⟩ := hv; exact ⟨al a rfl, L, (ct a rfl).2 b, e⟩
  | destroy s => exact al hv rfl

/-- C95: in every state that can be reached by any history of calls, every call is a matter of the lists it is about.  In every
other state in which these lists and their elements are the same, whatever else there is, it terminates without any fault, gives
the same result, reports the same, leaves the same content in the lists it is about, and changes nothing else. -/
theorem list_local (hr : Reach w) (hv : Valid w c) : OnlyAbout (CallCell w c) w (exec c) := by
  obtain ⟨env, h, hh⟩ := hr
  obtain ⟨-, -, σ, h1, h2, -⟩ := hh.sim
  obtain ⟨r, w', hr, -⟩ := (exec_sim (only_inv (c := c) h1) (only_own h2) rfl (only_valid h1 hv)).runs
  exact (LL.Local.exec c).onlyAbout hr

theorem callCell_apart {c1 c2 : Call V} (h : Inv w σ) (hd : ∀ s, About c1 s → ¬ About c2 s) (p : Ptr)
    (h1 : CallCell w c1 p) : ¬ CallCell w c2 p := by
  intro h2
  obtain ⟨s, ls, a1, a2, a3⟩ := (callCell_iff h).1 h1
  obtain ⟨t, lt, b1, b2, b3⟩ := (callCell_iff h).1 h2
  have hne : s ≠ t := by rintro rfl; exact hd _ a1 b1
  simp only [cells, List.mem_cons] at a3 b3
  rcases a3 with rfl | a3 <;> rcases b3 with b3 | b3
  · exact hne b3
  · exact h.st.hdr_not_mem a2 b2 b3
  · subst b3; exact h.st.hdr_not_mem b2 a2 a3
  · exact h.st.disj s t ls lt a2 b2 hne p a3 b3

theorem frugal_quiet (hf : Frugal c) : Quiet (exec c) ∧ Fixed (exec c) := by
  cases c with
  | erase s p => exact ⟨.bind (LL.Quiet.erase _ _) fun _ => .pure _, .bind (LL.Fixed.erase _ _) fun _ => .pure _⟩
  | eraseRange s p q => exact ⟨.bind (LL.Quiet.eraseRange _ _ _) fun _ => .pure _, .bind (LL.Fixed.eraseRange _ _ _) fun _ => .pure _⟩
  | popBack s =>
    exact ⟨.bind (LL.Quiet.popBack _) fun _ => .pure _, .bind (.bind (LL.Fixed.getPrev _) fun _ =>
      .bind (LL.Fixed.checkNode _) fun _ => .bind (LL.Fixed.erase _ _) fun _ => .pure _) fun _ => .pure _⟩
  | popFront s =>
    exact ⟨.bind (LL.Quiet.popFront _) fun _ => .pure _, .bind (.bind (LL.Fixed.begin_ _) fun _ =>
      .bind (LL.Fixed.erase _ _) fun _ => .pure _) fun _ => .pure _⟩
  | clear s => exact ⟨.bind (LL.Quiet.clear _) fun _ => .pure _, .bind (LL.Fixed.clear _) fun _ => .pure _⟩
  | swap s t => exact ⟨.bind (LL.Quiet.swap _ _) fun _ => .pure _, .bind (LL.Fixed.swap _ _) fun _ => .pure _⟩
  | merge _ s t => exact ⟨.bind (LL.Quiet.merge _ _ _) fun _ => .pure _, .bind (LL.Fixed.merge _ _ _) fun _ => .pure _⟩
  | spliceAll s p t => exact ⟨.bind (LL.Quiet.spliceAll _ _) fun _ => .pure _, .bind (LL.Fixed.spliceAll _ _) fun _ => .pure _⟩
  | spliceOne s p t _ => exact ⟨.bind (LL.Quiet.spliceOne _ _) fun _ => .pure _, .bind (LL.Fixed.spliceOne _ _) fun _ => .pure _⟩
  | spliceRange s p t _ _ =>
    exact ⟨.bind (LL.Quiet.spliceRange _ _ _) fun _ => .pure _, .bind (LL.Fixed.spliceRange _ _ _) fun _ => .pure _⟩
  | destroy s => exact ⟨.bind (LL.Quiet.destroyList _) fun _ => .pure _, .bind (LL.Fixed.destroyList _) fun _ => .pure _⟩
  | _ => exact hf.elim

/-- C95: two calls on different lists that neither obtain memory nor create objects (erasing, clearing, destroying, exchanging,
merging, splicing) can be exchanged: whichever is made first, both give the same results, neither reports an error, and the same
memory is left. -/
theorem list_exchange {c1 c2 : Call V} (hr : Reach w)
    (hoff : ∀ j a, w.nAlloc ≤ j → w.env.addr j = some a → w.heap (.dyn a) = none) (hv1 : Valid w c1) (hv2 : Valid w c2)
    (hf1 : Frugal c1) (hf2 : Frugal c2) (hd : ∀ s, About c1 s → ¬ About c2 s) :
    ∃ r1 r2 w1 w2 w', Runs (exec c1) (ready w) r1 w1 ∧ Runs (exec c2) w1 r2 w' ∧
      Runs (exec c2) (ready w) r2 w2 ∧ Runs (exec c1) w2 r1 w' ∧ w'.err = none := by
  obtain ⟨env, h, hh⟩ := id hr
  obtain ⟨A, -, hsim⟩ := hh.sim
  obtain ⟨r1, w1, k1, -⟩ := (hsim.call hv1).runs
  obtain ⟨r2, w2, k2, -⟩ := (hsim.call hv2).runs
  obtain ⟨σ, hI, -, -⟩ := hsim
  have hstk : ∀ i, w.sp ≤ i → w.heap (.stk i) = none := fun i hi => Classical.byContradiction fun hn => by
    have := hI.sp i hn
    omega
  obtain ⟨q1, f1⟩ := frugal_quiet hf1
  obtain ⟨q2, f2⟩ := frugal_quiet hf2
  have q1 := q1 _ _ _ k1
  have q2 := q2 _ _ _ k2
  have f1 := f1 _ _ _ k1
  have f2 := f2 _ _ _ k2
  exact OnlyAbout.exchange (list_local hr hv1) (list_local hr hv2) (callCell_apart hI hd) ⟨hstk, hoff⟩ k1
    ⟨q1.allocs, q1.ctors, f1⟩ q1.err k2 ⟨q2.allocs, q2.ctors, f2⟩ q2.err

theorem unoffered (hr : Reach w) (hg : Good w) : Unoffered w := by
  obtain ⟨σ, h, -⟩ := hr.inv
  refine ⟨fun i hi => Classical.byContradiction fun hn => ?_, fun j a hj ha => Classical.byContradiction fun hn => ?_⟩
  · have := h.sp i hn; omega
  · obtain ⟨k, hk, e⟩ := hg.past a hn
    have := hg.inj j k (by rw [e, ha])
    omega

-- merging two lists, and erasing an element of a third one
example : ∃ (w : W Nat) (s t u z : Ptr), Reach w ∧
    (∀ j a, w.nAlloc ≤ j → w.env.addr j = some a → w.heap (.dyn a) = none) ∧
    Valid w (.merge (· < ·) s t) ∧ Valid w (.erase u z) ∧ Frugal (.merge (fun a b : Nat => a < b) s t) ∧
    Frugal (.erase u z : Call Nat) ∧ ∀ x, About (.merge (fun a b : Nat => a < b) s t) x → ¬ About (.erase u z : Call Nat) x := by
  obtain ⟨w, s, t, u, p, q, r, x, y, z, hr, hg, hst, hsu, htu, ha, hb, hu, hc, hd, he, h1, h2, h3⟩ := demo
  refine ⟨w, s, t, u, z, hr, (unoffered hr hg).dyn, ⟨ha, hb, ⟨_, h1, h2⟩, hst⟩, ⟨hu, [], 9, [], he⟩, trivial, trivial, ?_⟩
  rintro x (rfl | rfl) h
  · exact hsu h
  · exact htu h

-- appending to a list (which needs memory) in a state from which all other lists are removed
example : ∃ (w w2 : W Nat) (s t : Ptr), Reach w ∧ Valid w (.pushBack s 7) ∧ Alive w t ∧ ¬ Alive w2 t ∧
    Sees (CallCell w (.pushBack s 7)) w w2 ∧ ∀ n, Spare (CallCell w (.pushBack s 7)) w2 n := by
  obtain ⟨w, s, t, u, p, q, r, x, y, z, hr, hg, hst, hsu, htu, ha, hb, hu, hc, hd, he, h1, h2, h3⟩ := demo
  obtain ⟨σ, h, -⟩ := hr.inv
  have hun := unoffered hr hg
  refine ⟨w, w.only (CallCell w (.pushBack s 7)), s, t, hr, ha, hb, ?_, ⟨rfl, rfl, rfl, rfl, fun p hp => if_pos hp, ?_⟩, ?_⟩
  · intro h4
    obtain ⟨ls, h5⟩ := (alive_iff (only_inv h)).1 h4
    simp [About, hst.symm] at h5
  · intro i hi
    show (if _ then _ else _) = _
    split
    · exact hun.stk i hi
    · rfl
  · intro n j a hj _ hja
    left
    show (if _ then _ else _) = _
    split
    · exact hun.dyn j a hj hja
    · rfl
end

end Nestl.LC
