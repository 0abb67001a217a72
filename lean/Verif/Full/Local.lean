import Verif.RBTree.Local
import Verif.RBTree.Told
import Verif.Full.Query
set_option autoImplicit false
/-
A call on trees is a matter of the objects it is about: nothing else has any influence on it, and it has no influence on anything
else.
-/
namespace Nestl.Full
open RB Set Multi

section spec
variable {K : Type}

/-- The objects that a call is about. -/
def FAbout : FCall K → Ptr → Prop
  | .multi (.base (.create _)), _ => False
  | .multi (.base (.insert s _)), x | .multi (.base (.eraseKey s _)), x | .multi (.base (.eraseAt s _)), x
  | .multi (.base (.eraseRange s _ _)), x | .multi (.base (.clear s)), x | .multi (.base (.find s _)), x
  | .multi (.base (.move s)), x | .multi (.base (.destroy s)), x | .multi (.equal _ s _), x
  | .eraseKeys s _, x | .unique _ s _, x => x = s
  | .multi (.base (.copy _ d s)), x | .swap _ d s, x | .assign _ d s, x => x = d ∨ x = s

/-- The memory cells of the objects that a call is about: the objects and their elements. -/
def CallCell (w : W K) (c : FCall K) (p : Ptr) : Prop :=
  ∃ s L, FAbout c s ∧ Alive w s ∧ Contents w s L ∧ (p = s ∨ ∃ k, (p, k) ∈ L)

/-- Calls that neither obtain memory nor create objects or elements. -/
def Frugal : FCall K → Prop
  | .multi (.base (.eraseKey _ _)) | .multi (.base (.eraseAt _ _)) | .multi (.base (.eraseRange _ _ _)) | .multi (.base (.clear _))
  | .multi (.base (.find _ _)) | .multi (.base (.destroy _)) | .swap _ _ _ | .assign _ _ _ | .eraseKeys _ _ => True
  | _ => False

end spec

section
variable {K : Type} {lt : K → K → Bool} {w : W K} {c : FCall K} {P : List (Ptr × K) → Prop} {s : Ptr} {o : Nat} {t : T K}

theorem CallCell.stk {i : Nat} (hI : InvP P w) (h : CallCell w c (.stk i)) : FAbout c (.stk i) := by
  obtain ⟨s, L, h1, h2, h3, h4⟩ := h
  rcases h4 with rfl | ⟨k, hk⟩
  · exact h1
  · obtain ⟨j, o, t, rfl, -, ht, -⟩ := hI.tree h2
    obtain rfl := (contents_iff ht).1 h3
    obtain ⟨a, ha⟩ := ht.ok.dyn (.stk i) (by simp only [T.ptrs, List.mem_map]; exact ⟨_, hk, rfl⟩)
    cases ha

theorem only_ne {S : Ptr → Prop} {p : Ptr} (h : (w.only S).heap p ≠ none) : S p ∧ (w.only S).heap p = w.heap p := by
  by_cases hS : S p
  · exact ⟨hS, if_pos hS⟩
  · exact absurd (if_neg hS) h

theorem only_eq {S : Ptr → Prop} {p : Ptr} (h : S p) : (w.only S).heap p = w.heap p := if_pos h

theorem tree_only (hI : InvP P w) (ht : Tree w.heap s o t) (ha : FAbout c s) : Tree (w.only (CallCell w c)).heap s o t := by
  have hal : Alive w s := by obtain ⟨i, rfl⟩ := ht.ok.hdr; exact ⟨i, rfl, ht.ne_none⟩
  refine ht.congr (only_eq ⟨s, _, ha, hal, (contents_iff ht).2 rfl, .inl rfl⟩) fun p hp => ?_
  exact only_eq ⟨s, _, ha, hal, (contents_iff ht).2 rfl, .inr (by simpa [T.ptrs] using hp)⟩

theorem tree_whole (hI : InvP P w) (ht : Tree (w.only (CallCell w c)).heap s o t) : Tree w.heap s o t ∧ FAbout c s := by
  obtain ⟨i, rfl⟩ := ht.ok.hdr
  have h1 := only_ne ht.ne_none
  refine ⟨ht.congr h1.2.symm fun p hp => ?_, h1.1.stk hI⟩
  obtain ⟨n, hn, _⟩ := Rep_alloc ht.rep p hp
  exact (only_ne (S := CallCell w c) (by rw [hn]; simp)).2.symm

theorem only_inv (hI : InvP P w) : InvP P (w.only (CallCell w c)) := by
  refine ⟨?_, ?_, ?_, ?_⟩
  · intro i hi
    obtain ⟨h1, h2⟩ := only_ne hi
    obtain ⟨h3, o, t, h4, h5⟩ := hI.alive i (by rw [← h2]; exact hi)
    exact ⟨h3, o, t, tree_only hI h4 (h1.stk hI), h5⟩
  · intro i j o t o' t' h1 h2
    exact hI.disj (tree_whole hI h1).1 (tree_whole hI h2).1
  · intro a ha
    obtain ⟨⟨s, L, h1, h2, h3, h4⟩, h5⟩ := only_ne ha
    obtain ⟨i, o, t, rfl, -, ht, -⟩ := hI.tree h2
    obtain rfl := (contents_iff ht).1 h3
    rcases h4 with h4 | ⟨k, hk⟩
    · cases h4
    · refine ⟨i, o, t, tree_only hI ht h1, ?_⟩
      simp only [T.ptrs, List.mem_map]
      exact ⟨_, hk, rfl⟩
  · intro a ha
    exact hI.past a (by rw [← (only_ne ha).2]; exact ha)

theorem only_alive (hI : InvP P w) (h : Alive w s) (ha : FAbout c s) : Alive (w.only (CallCell w c)) s := by
  obtain ⟨i, o, t, rfl, -, ht, -⟩ := hI.tree h
  exact ⟨i, rfl, (tree_only hI ht ha).ne_none⟩

theorem only_contents (hI : InvP P w) (hs : Alive w s) (ha : FAbout c s) {L : List (Ptr × K)} (h : Contents w s L) :
    Contents (w.only (CallCell w c)) s L := by
  obtain ⟨i, o, t, rfl, -, ht, -⟩ := hI.tree hs
  obtain rfl := (contents_iff ht).1 h
  exact (contents_iff (tree_only hI ht ha)).2 rfl

theorem only_valid (hI : InvP P w) (hv : FValid lt w c) : FValid lt (w.only (CallCell w c)) c := by
  have al : ∀ {s}, Alive w s → FAbout c s → Alive (w.only (CallCell w c)) s := only_alive hI
  have ct : ∀ {s L}, Alive w s → FAbout c s → Contents w s L → Contents (w.only (CallCell w c)) s L := fun h1 h2 h3 => only_contents hI h1 h2 h3
  have key : ∀ {s}, Alive w s → FAbout c s → (w.only (CallCell w c)).heap s = w.heap s := by
    intro s hs ha
    exact (only_ne (only_alive hI hs ha).choose_spec.2).2
  match c, hv with
  | .multi (.base (.create _)), _ => trivial
  | .multi (.base (.insert s _)), h => exact al h rfl
  | .multi (.base (.eraseKey s _)), h => exact al h rfl
  | .multi (.base (.eraseAt s _)), ⟨h, L, k, h1, h2⟩ => exact ⟨al h rfl, L, k, ct h rfl h1, h2⟩
  | .multi (.base (.eraseRange s _ _)), ⟨h, A, M, B, h1, h2⟩ => exact ⟨al h rfl, A, M, B, ct h rfl h1, h2⟩
  | .multi (.base (.clear s)), h => exact al h rfl
  | .multi (.base (.find s _)), h => exact al h rfl
  | .multi (.base (.copy _ d s)), ⟨h1, h2⟩ => exact ⟨al h1 (.inl rfl), al h2 (.inr rfl)⟩
  | .multi (.base (.move s)), h => exact al h rfl
  | .multi (.base (.destroy s)), h => exact al h rfl
  | .multi (.equal (.hint pos) s k), ⟨h, h1, L, h2, h3⟩ => exact ⟨al h rfl, h1, L, ct h rfl h2, h3⟩
  | .multi (.equal .upper s k), h => exact al h rfl
  | .multi (.equal .lower s k), h => exact al h rfl
  | .swap prop s t, ⟨h1, h2, h3⟩ =>
    refine ⟨al h1 (.inl rfl), al h2 (.inr rfl), h3.imp_right ?_⟩
    rintro ⟨a, ⟨m, m1, m2⟩, n, n1, n2⟩
    exact ⟨a, ⟨m, (key h1 (.inl rfl)).trans m1, m2⟩, n, (key h2 (.inr rfl)).trans n1, n2⟩
  | .assign _ d s, ⟨h1, h2⟩ => exact ⟨al h1 (.inl rfl), al h2 (.inr rfl)⟩
  | .eraseKeys s _, h => exact al h rfl
  | .unique m s k, ⟨h, h1⟩ =>
    refine ⟨al h rfl, ?_⟩
    cases m with
    | emplace => trivial
    | «at» pos => obtain ⟨h2, L, h3, h4⟩ := h1; exact ⟨h2, L, ct h rfl h3, h4⟩
    | emplaceAt pos => obtain ⟨h2, L, h3, h4⟩ := h1; exact ⟨h2, L, ct h rfl h3, h4⟩

theorem onlyAbout_of (hI : InvP P w) (hv : FValid lt w c) : OnlyAbout (CallCell w c) w (fexec lt c) := by
  obtain ⟨r, w', hr, -⟩ := (fexec_effectS (S := False) (lt := lt) (only_inv (c := c) hI) (fun _ _ _ _ _ h => h.elim)
    (only_valid hI hv) rfl).runs
  exact (Local.fexec lt c).onlyAbout hr

/-- C95: in every state that can be reached by any history of calls, with every comparator, every call is a matter of the objects
it is about.  In every other state in which these objects and their elements are the same, whatever else there is, it terminates
without any fault, gives the same result, reports the same, leaves the same content in the objects it is about, and changes
nothing else. -/
theorem tree_local (hr : FReach lt w) (hv : FValid lt w c) : OnlyAbout (CallCell w c) w (fexec lt c) :=
  onlyAbout_of hr.inv hv

theorem callCell_apart {c1 c2 : FCall K} (hI : InvP P w) (hd : ∀ s, FAbout c1 s → ¬ FAbout c2 s) (p : Ptr)
    (h1 : CallCell w c1 p) : ¬ CallCell w c2 p := by
  intro h2
  obtain ⟨s, L, a1, a2, a3, a4⟩ := h1
  obtain ⟨s', L', b1, b2, b3, b4⟩ := h2
  obtain ⟨i, o, t, rfl, -, ht, -⟩ := hI.tree a2
  obtain ⟨i', o', t', rfl, -, ht', -⟩ := hI.tree b2
  obtain rfl := (contents_iff ht).1 a3
  obtain rfl := (contents_iff ht').1 b3
  have hne : i ≠ i' := by rintro rfl; exact hd _ a1 b1
  have mem : ∀ {t : T K}, (∃ k, (p, k) ∈ t.nodes) → p ∈ t.ptrs := fun h => by simpa [T.ptrs] using h
  rcases a4 with rfl | a4 <;> rcases b4 with b4 | b4
  · cases b4; exact hne rfl
  · obtain ⟨a, ha⟩ := ht'.ok.dyn _ (mem b4); cases ha
  · obtain ⟨a, ha⟩ := ht.ok.dyn _ (mem a4); rw [b4] at ha; cases ha
  · exact hI.disj ht ht' hne p (mem a4) (mem b4)

theorem frugal_quiet (hf : Frugal c) : Quiet (fexec lt c) := by
  have ex : ∀ (d : Call K), Frugal (.multi (.base d)) → Quiet (exec lt d) := by
    intro d hd
    cases d with
    | create _ => exact hd.elim
    | insert _ _ => exact hd.elim
    | copy _ _ _ => exact hd.elim
    | move _ => exact hd.elim
    | _ => unfold exec; quietly
  cases c with
  | multi c =>
    cases c with
    | equal _ _ _ => exact hf.elim
    | base d => unfold fexec mexec mrun; exact .bind (.bind (Quiet.index _) fun _ => .bind (ex d hf) fun _ => .pure _) fun _ => .pure _
  | unique _ _ _ => exact hf.elim
  | _ => unfold fexec; quietly

theorem frugal_calm {r : FRes K} {w' : W K} (hr : FReach lt w) (hv : FValid lt w c) (hf : Frugal c)
    (k : Runs (fexec lt c) (ready w) r w') : Calm w w' := by
  have hq := frugal_quiet (lt := lt) hf _ _ _ k
  refine ⟨hq.allocs, hq.ctors, ?_⟩
  obtain ⟨r', w2, k', -, he⟩ := hr.step hv
  obtain ⟨rfl, rfl⟩ := Runs.det k k'
  cases he with
  | multi he =>
    cases he with
    | base he =>
      cases he with
      | create => exact hf.elim
      | insertOld => exact hf.elim
      | insertFail => exact hf.elim
      | insertNew => exact hf.elim
      | eraseKey _ _ _ _ _ hc => exact hc.ext.sp
      | eraseAt _ _ _ _ hc => exact hc.ext.sp
      | eraseRange _ _ _ _ hc => exact hc.ext.sp
      | clear _ _ hc => exact hc.ext.sp
      | findNone _ _ _ _ _ hc => exact hc.sp
      | findSome _ _ _ _ _ hc => exact hc.sp
      | copySelf => exact hf.elim
      | copyFail => exact hf.elim
      | copyOk => exact hf.elim
      | move => exact hf.elim
      | destroy _ hc => exact hc.ext.sp
    | fail => exact hf.elim
    | new => exact hf.elim
  | swapSelf => rfl
  | swap => rfl
  | assign => rfl
  | assignSelf => rfl
  | assignRefused => rfl
  | eraseKeys _ _ hc => exact hc.ext.sp
  | uniqueOld => exact hf.elim
  | uniqueFail => exact hf.elim
  | uniqueNew => exact hf.elim

/-- C95: two calls on different objects that neither obtain memory nor create objects (erasing, searching, clearing, destroying,
exchanging, moving into existing objects) can be exchanged: whichever is made first, both give the same results, neither reports
an error, and the same memory is left. -/
theorem tree_exchange {c1 c2 : FCall K} (hr : FReach lt w)
    (hoff : ∀ j a, w.nAlloc ≤ j → w.env.addr j = some a → w.heap (.dyn a) = none) (hv1 : FValid lt w c1) (hv2 : FValid lt w c2)
    (hf1 : Frugal c1) (hf2 : Frugal c2) (hd : ∀ s, FAbout c1 s → ¬ FAbout c2 s) :
    ∃ r1 r2 w1 w2 w', Runs (fexec lt c1) (ready w) r1 w1 ∧ Runs (fexec lt c2) w1 r2 w' ∧
      Runs (fexec lt c2) (ready w) r2 w2 ∧ Runs (fexec lt c1) w2 r1 w' ∧ w'.err = none := by
  obtain ⟨r1, w1, k1, -⟩ := hr.step hv1
  obtain ⟨r2, w2, k2, -⟩ := hr.step hv2
  have hstk : ∀ i, w.sp ≤ i → w.heap (.stk i) = none := fun i hi => Classical.byContradiction fun hn => by
    have := (hr.inv.alive i hn).1
    omega
  exact (tree_local hr hv1).exchange (tree_local hr hv2) (callCell_apart hr.inv hd) ⟨hstk, hoff⟩ k1
    (frugal_calm hr hv1 hf1 k1) (frugal_quiet (lt := lt) hf1 _ _ _ k1).err k2
    (frugal_calm hr hv2 hf2 k2) (frugal_quiet (lt := lt) hf2 _ _ _ k2).err

-- erasing a key from one object and clearing another
example : ∃ w L, FReach pairLt w ∧ (∀ j a, w.nAlloc ≤ j → w.env.addr j = some a → w.heap (.dyn a) = none) ∧
    FValid pairLt w (.multi (.base (.eraseKey (.stk 0) (2, 9)))) ∧ FValid pairLt w (.multi (.base (.clear (.stk 1)))) ∧
    Contents w (.stk 0) L ∧ L.length = 4 ∧ (∀ s, FAbout (.multi (.base (.eraseKey (.stk 0) (2, 9)))) s →
      ¬ FAbout (.multi (.base (.clear (.stk 1))) : FCall (Nat × Nat)) s) ∧
    ∃ M, Contents w (.stk 1) M ∧ M.length = 1 := by
  obtain ⟨w, L, M, h1, hg, h2, h3, h4, h5, h6, h7, h8, h9⟩ := fdemo 7
  refine ⟨w, L, h1, fun j a hj ha => ?_, h2, h3, h4, by simpa using congrArg List.length h6, ?_, M, h5,
    by simpa using congrArg List.length h7⟩
  · apply Classical.byContradiction
    intro hn
    obtain ⟨k, hk, e⟩ := hg.past a hn
    have := hg.inj j k (by rw [e, ha])
    omega
  · simp [FAbout]

-- an insertion in a state where the other object does not exist; it needs memory, and the allocator offers none that is in use
example : ∃ w L, FReach pairLt w ∧ FValid pairLt w (.multi (.base (.insert (.stk 0) (2, 5)))) ∧ Contents w (.stk 0) L ∧ L.length = 4 ∧
    ∃ w2, Sees (CallCell w (.multi (.base (.insert (.stk 0) (2, 5))))) w w2 ∧ ¬ Alive w2 (.stk 1) ∧ Alive w (.stk 1) ∧
      ∀ n, Spare (CallCell w (.multi (.base (.insert (.stk 0) (2, 5))))) w2 n := by
  obtain ⟨w, L, M, h1, hg, h2, h3, h4, h5, h6, h7, h8, h9⟩ := fdemo 7
  refine ⟨w, L, h1, h2, h4, by simpa using congrArg List.length h6,
    { w with heap := fun p => if p = .stk 1 then none else w.heap p }, ⟨rfl, rfl, rfl, rfl, ?_, ?_⟩, ?_, h3, ?_⟩
  · intro p hp
    refine if_neg ?_
    rintro rfl
    have := hp.stk h1.inv
    simp [FAbout] at this
  · intro i hi
    show (if _ then _ else _) = _
    split
    · rfl
    · exact Classical.byContradiction fun hn => by
        have := (h1.inv.alive i hn).1
        exact absurd hi (by simpa using this)
  · rintro ⟨i, e, hn⟩
    exact hn (by simp)
  · intro n j a hj _ ha
    left
    simp only
    split
    · rfl
    · apply Classical.byContradiction
      intro hn
      obtain ⟨k, hk, e⟩ := hg.past a hn
      have := hg.inj j k (by rw [e]; exact ha)
      simp only at hj
      omega
end

end Nestl.Full
