import Verif.SharedPtr.Weak
set_option autoImplicit false
/-
Effect of `make_shared_a_nothrow`.
-/
namespace Nestl.SP

variable {V : Type}

/-- Additional object in block `b` with empty members of the kinds `ks`. -/
def Hs.obj (A : Hs) (b : Ptr) (ks : List Kind) : Hs := fun k l z => A k l z ∨ ∃ i, l = .mem b i ∧ ks[i]? = some k ∧ z = .nil

section
variable {dom : List Ptr} {T : Kind → Ptr → Int} {D : List Ptr} {h : Heap V}

/-- Any unused address may be listed. -/
theorem Inv.list (hi : Inv dom T D h) {p : Ptr} (hp : h p = none) : ∃ dom', Inv dom' T D h ∧ p ∈ dom' := by
  by_cases hm : p ∈ dom
  · exact ⟨dom, hi, hm⟩
  · have htot : ∀ k b, tot (p :: dom) h k b = tot dom h k b := by
      intro k b; simp [tot, hp, refsOf]
    refine ⟨p :: dom, { hi with nd := List.nodup_cons.2 ⟨hm, hi.nd⟩, cov := fun p h => List.mem_cons_of_mem _ (hi.cov p h), use := ?_, weak := ?_, tgt := ?_ }, List.mem_cons_self⟩
    · intro b c hb; rw [htot]; exact hi.use b c hb
    · intro b c hb; rw [htot]; exact hi.weak b c hb
    · intro k b hb; rw [htot]; exact hi.tgt k b hb

theorem memRefs_nil (k : Kind) {b : Ptr} (hb : b ≠ .null) (ks : List Kind) : memRefs k b (ks.map fun k => (k, Hnd.nil)) = 0 := by
  induction ks with
  | nil => rfl
  | cons k' ks ih =>
    have : ind k b (k', Hnd.nil) = 0 := by unfold ind; rw [if_neg]; rintro ⟨-, e⟩; exact hb e.symm
    simp only [memRefs, List.map_cons, List.sum_cons] at ih ⊢
    omega

/-- A new block whose object has no owner yet. -/
theorem Inv.newBlk {a : Nat} (hi : Inv dom T D h) (hp : h (.dyn a) = none) (hT : ∀ k, T k (.dyn a) = 0) (v : V) (ks : List Kind) :
    ∃ dom', Inv dom' T (.dyn a :: D) (upd h (.dyn a) (some (.blk ⟨0, 0, some ⟨v, ks.map fun k => (k, .nil)⟩, defaultAlloc⟩))) := by
  obtain ⟨dom', hi, hm⟩ := hi.list hp
  refine ⟨dom', ?_⟩
  have h0 : ∀ k, tot dom' h k (.dyn a) = 0 := fun k => tot_null_of hi (by intro e; cases e) hp
  generalize hc : (⟨0, 0, some ⟨v, ks.map fun k => (k, .nil)⟩, defaultAlloc⟩ : Blk V) = c
  have htot : ∀ k d, d ≠ .null → tot dom' (upd h (.dyn a) (some (.blk c))) k d = tot dom' h k d := by
    intro k d hd
    have := tot_upd (h := h) hi.nd hm (some (.blk c)) k d
    rw [hp] at this
    have e : refsOf k d (some (.blk c)) = 0 := by
      subst hc; simp only [refsOf]; exact memRefs_nil k hd ks
    rw [e] at this
    simpa [refsOf] using this
  refine ⟨hi.nd, ?_, ?_, ?_, ?_, ?_, ?_, ?_, ?_, ?_, ?_, ?_⟩
  · intro p hpp
    by_cases hpb : p = .dyn a
    · subst hpb; exact hm
    · rw [upd_other _ _ hpb] at hpp; exact hi.cov _ hpp
  · intro p k x hpp
    by_cases hpb : p = .dyn a
    · subst hpb; simp at hpp
    · rw [upd_other _ _ hpb] at hpp; exact hi.shVar _ _ _ hpp
  · intro p hpp
    by_cases hpb : p = .dyn a
    · subst hpb; simp at hpp
    · rw [upd_other _ _ hpb] at hpp; exact hi.shLost _ hpp
  · intro p d hpp
    by_cases hpb : p = .dyn a
    · exact ⟨a, hpb⟩
    · rw [upd_other _ _ hpb] at hpp; exact hi.shBlk _ _ hpp
  · intro p o hpp
    by_cases hpb : p = .dyn a
    · subst hpb; simp at hpp
    · rw [upd_other _ _ hpb] at hpp; exact hi.shRaw _ _ hpp
  · intro d e hd
    by_cases hda : d = .dyn a
    · subst hda
      rw [htot _ _ (by intro e; cases e), h0, hT]
      simp at hd; subst hd; subst hc; rfl
    · rw [upd_other _ _ hda] at hd
      rw [htot _ _ (hi.ne_null hd)]; exact hi.use _ _ hd
  · intro d e hd
    by_cases hda : d = .dyn a
    · subst hda
      rw [htot _ _ (by intro e; cases e), h0, hT]
      simp at hd; subst hd; subst hc; rfl
    · rw [upd_other _ _ hda] at hd
      rw [htot _ _ (hi.ne_null hd)]; exact hi.weak _ _ hd
  · intro d e hd
    by_cases hda : d = .dyn a
    · subst hda; simp at hd; subst hd; subst hc; rfl
    · rw [upd_other _ _ hda] at hd; exact hi.owner _ _ hd
  · intro k d hd hpos
    rw [htot _ _ hd] at hpos
    obtain ⟨c', h'⟩ := hi.tgt k d hd hpos
    exact ⟨c', by rw [upd_other]; exact h'; rintro rfl; rw [hp] at h'; cases h'⟩
  · intro d e hd hD
    have hda : d ≠ .dyn a := by rintro rfl; simp at hD
    rw [upd_other _ _ hda] at hd
    exact hi.life _ _ hd (fun h => hD (List.mem_cons_of_mem _ h))
  · intro d hd
    rcases List.mem_cons.1 hd with rfl | hd
    · exact ⟨c, upd_same .., by subst hc; rfl, by subst hc; simp⟩
    · obtain ⟨c', h1, h2⟩ := hi.dying d hd
      exact ⟨c', by rw [upd_other _ _ (by rintro rfl; rw [hp] at h1; cases h1)]; exact h1, h2⟩

/-- A mark of a lost control block. -/
theorem Inv.newLost {i : Nat} (hi : Inv dom T D h) (hp : h (.stk i) = none) :
    ∃ dom', Inv dom' T D (upd h (.stk i) (some .lost)) := by
  obtain ⟨dom', hi, hm⟩ := hi.list hp
  refine ⟨dom', ?_⟩
  have htot : ∀ k d, tot dom' (upd h (.stk i) (some .lost)) k d = tot dom' h k d := by
    intro k d
    have := tot_upd (h := h) hi.nd hm (some .lost) k d
    rw [hp] at this
    simpa [refsOf] using this
  have hblk : ∀ d e, upd h (.stk i) (some (.lost : Cell V)) d = some (.blk e) ↔ h d = some (.blk e) := by
    intro d e
    by_cases hd : d = .stk i
    · subst hd; rw [upd_same]; constructor
      · intro h; cases h
      · intro h; rw [hp] at h; cases h
    · rw [upd_other _ _ hd]
  refine ⟨hi.nd, ?_, ?_, ?_, ?_, ?_, ?_, ?_, ?_, ?_, ?_, ?_⟩
  · intro p hpp
    by_cases hpb : p = .stk i
    · subst hpb; exact hm
    · rw [upd_other _ _ hpb] at hpp; exact hi.cov _ hpp
  · intro p k x hpp
    by_cases hpb : p = .stk i
    · exact ⟨i, hpb⟩
    · rw [upd_other _ _ hpb] at hpp; exact hi.shVar _ _ _ hpp
  · intro p hpp
    by_cases hpb : p = .stk i
    · exact ⟨i, hpb⟩
    · rw [upd_other _ _ hpb] at hpp; exact hi.shLost _ hpp
  · intro p d hpp; exact hi.shBlk _ _ ((hblk _ _).1 hpp)
  · intro p o hpp
    by_cases hpb : p = .stk i
    · subst hpb; rw [upd_same] at hpp; cases hpp
    · rw [upd_other _ _ hpb] at hpp; exact hi.shRaw _ _ hpp
  · intro d e hd; rw [htot]; exact hi.use _ _ ((hblk _ _).1 hd)
  · intro d e hd; rw [htot]; exact hi.weak _ _ ((hblk _ _).1 hd)
  · intro d e hd; exact hi.owner _ _ ((hblk _ _).1 hd)
  · intro k' d hd hpos
    rw [htot] at hpos
    obtain ⟨c, hc⟩ := hi.tgt k' d hd hpos
    exact ⟨c, (hblk _ _).2 hc⟩
  · intro d e hd hnD; exact hi.life _ _ ((hblk _ _).1 hd) hnD
  · intro d hd
    obtain ⟨c, h1, h2⟩ := hi.dying d hd
    exact ⟨c, (hblk _ _).2 h1, h2⟩

end

section
variable {A : Hs} {B : Ptr → V → Prop} {w : W V}

/-- The outcome of a successful `make_shared`. -/
structure Made (A : Hs) (B : Ptr → V → Prop) (v : V) (ks : List Kind) (w w' : W V) (p : Ptr) (a : Nat) : Prop where
  var : p = .stk w.sp
  free : w.heap (.dyn a) = none
  addr : w.env.addr w.nAlloc = some a
  ctor : w.env.ctor w.nCtor = true
  err : w'.err = none
  env : w'.env = w.env
  nAlloc : w'.nAlloc = w.nAlloc + 1
  nCtor : w'.nCtor = w.nCtor + 1
  dyn : ∀ d, d ≠ a → w.heap (.dyn d) = none → w'.heap (.dyn d) = none
  g : G ((A.obj (.dyn a) ks).put .sh (.var p) ⟨.dyn a, .dyn a⟩) (fun d u => B d u ∨ (d = .dyn a ∧ u = v)) w'

/-- The outcome of a failed `make_shared`. -/
structure Unmade (A : Hs) (B : Ptr → V → Prop) (w w' : W V) (p : Ptr) : Prop where
  var : ∃ i, p = .stk i ∧ w.sp ≤ i
  refused : Refused w
  err : w'.err ≠ none
  env : w'.env = w.env
  nAlloc : w'.nAlloc = w.nAlloc + 1
  dyn : ∀ d, w'.heap (.dyn d) = w.heap (.dyn d)
  lost : (∃ q, w'.heap q = some .lost ∧ w.heap q ≠ some .lost) ↔ ¬ ∀ a, w.env.addr w.nAlloc = some a → w.heap (.dyn a) ≠ none
  keep : ∀ q c, w.heap q = some c → w'.heap q = some c
  new : ∀ q, w'.heap q ≠ none → w.heap q ≠ none ∨ q = p ∨ w'.heap q = some .lost
  g : G (A.put .sh (.var p) .nil) B w'

theorem G.no_var (s : G A B w) : ∀ i, w.sp ≤ i → ∀ k z, ¬ A k (.var (.stk i)) z := by
  intro i hi k z hz
  rw [← s.at_] at hz
  have hz : w.heap _ = _ := hz
  rw [s.fresh i hi] at hz; cases hz

theorem St.same {T : Kind → Ptr → Int} {L : Kind → Ptr → Prop} {w' : W V} (s : St T A B L w) (hh : w'.heap = w.heap) (hs : w.sp ≤ w'.sp) :
    St T A B L w' :=
  ⟨by rw [hh]; exact s.inv, fun i hi => by rw [hh]; exact s.fresh i (Nat.le_trans hs hi), by rw [hh]; exact s.at_,
    by rw [hh]; exact s.val, by rw [hh]; exact s.live⟩

/-- A new empty `shared_ptr` in a world with the memory of `w`. -/
theorem G.newNil (s : G A B w) {w' : W V} (hs : w'.sp = w.sp + 1)
    (hh : w'.heap = upd w.heap (.stk w.sp) (some (.var .sh .nil))) : G (A.put .sh (.var (.stk w.sp)) .nil) B w' := by
  have h := s.wp_newShared (Q := fun p w' => G (A.put .sh (.var p) .nil) B w') (by
    intro w' _ _ _ s'
    exact s'.done (fun _ _ _ => rfl))
  unfold newShared at h
  rw [wp_newObj] at h
  exact h.same hh (by rw [hs]; exact Nat.le_refl _)

/-- A lost control block. -/
theorem G.newLost (s : G A B w) {w' : W V} (hs : w'.sp = w.sp + 1)
    (hh : w'.heap = upd w.heap (.stk w.sp) (some .lost)) : G A B w' := by
  have hp := s.fresh w.sp (Nat.le_refl _)
  have hblk : ∀ d e, upd w.heap (.stk w.sp) (some (.lost : Cell V)) d = some (.blk e) ↔ w.heap d = some (.blk e) := by
    intro d e
    by_cases hd : d = .stk w.sp
    · subst hd; rw [upd_same, hp]; simp
    · rw [upd_other _ _ hd]
  refine ⟨?_, ?_, ?_, ?_, ?_⟩
  · obtain ⟨dom, hi⟩ := s.inv
    rw [hh]; exact hi.newLost hp
  · intro i hi
    rw [hh, upd_other _ _ (by intro e; cases e; omega)]
    exact s.fresh i (by omega)
  · rw [← s.at_]
    funext k l z
    apply propext
    cases l with
    | var q =>
      simp only [At, hh, upd_apply]
      by_cases hq : q = .stk w.sp
      · subst hq; simp [hp]
      · simp [hq]
    | mem d i => simp only [At, hh, hblk]
  · rw [← s.val]
    funext b v
    simp only [Val, hh, hblk]
  · intro k b hb
    obtain ⟨c, h1, h2⟩ := s.live k b hb
    exact ⟨c, by rw [hh]; exact (hblk _ _).2 h1, h2⟩

/-- A new object with one owner. -/
theorem G.newMade (s : G A B w) {w' : W V} {a : Nat} (ha : w.heap (.dyn a) = none) (v : V) (ks : List Kind) (hs : w'.sp = w.sp + 1)
    (hh : w'.heap = upd (upd w.heap (.dyn a) (some (.blk ⟨1, 0, some ⟨v, ks.map fun k => (k, .nil)⟩, defaultAlloc⟩)))
      (.stk w.sp) (some (.var .sh ⟨.dyn a, .dyn a⟩))) :
    G ((A.obj (.dyn a) ks).put .sh (.var (.stk w.sp)) ⟨.dyn a, .dyn a⟩) (fun d u => B d u ∨ (d = .dyn a ∧ u = v)) w' := by
  have hp := s.fresh w.sp (Nat.le_refl _)
  have hne : (Ptr.dyn a) ≠ .stk w.sp := by intro e; cases e
  have hinv : ∃ dom, Inv dom zero [] w'.heap := by
    obtain ⟨dom, hi⟩ := s.inv
    obtain ⟨dom1, hi1⟩ := hi.newBlk ha (fun _ => rfl) v ks
    obtain ⟨dom2, hi2, -⟩ := hi1.newVar (k := .sh) (i := w.sp) (y := ⟨.dyn a, .dyn a⟩) (by rw [upd_other _ _ hne.symm]; exact hp)
      (fun _ => ⟨_, upd_same ..⟩)
    have hi3 := hi2.blk (T' := zero) (D' := []) (b := .dyn a) (c := ⟨0, 0, some ⟨v, ks.map fun k => (k, .nil)⟩, defaultAlloc⟩) (c' := ⟨1, 0, some ⟨v, ks.map fun k => (k, .nil)⟩, defaultAlloc⟩)
      (by rw [upd_other _ _ hne]; exact upd_same ..) rfl rfl
      (by intro k d hd; simp [zero, ind, Ne.symm hd]) (by simp [zero, ind]) (by simp [zero, ind]) (by simp)
      (by intro d hd; simp [hd]) (by simp)
    rw [upd_comm _ _ _ hne, upd_upd] at hi3
    rw [hh, upd_comm _ _ _ hne]
    exact ⟨_, hi3⟩
  have hA : ∀ k i z, ¬ A k (.mem (.dyn a) i) z := by
    intro k i z hz
    rw [← s.at_] at hz
    obtain ⟨c, o, h1, -⟩ := hz
    rw [ha] at h1; cases h1
  have hB : ∀ u, ¬ B (.dyn a) u := by
    intro u hu
    rw [← s.val] at hu
    obtain ⟨c, o, h1, -⟩ := hu
    rw [ha] at h1; cases h1
  have hat : At w'.heap = (A.obj (.dyn a) ks).put .sh (.var (.stk w.sp)) ⟨.dyn a, .dyn a⟩ := by
    funext k l z
    apply propext
    cases l with
    | var q =>
      simp only [At, Hs.put, Hs.obj, hh, Loc.var.injEq, reduceCtorEq, false_and, exists_false, or_false]
      by_cases hq : q = .stk w.sp
      · subst hq
        simp only [upd_same, if_true, Option.some.injEq, Cell.var.injEq]
        exact ⟨fun h => ⟨h.1.symm, h.2.symm⟩, fun h => ⟨h.1.symm, h.2.symm⟩⟩
      · rw [upd_other _ _ hq, if_neg hq, ← s.at_]
        by_cases hq2 : q = .dyn a
        · subst hq2; simp [At, ha]
        · rw [upd_other _ _ hq2]; rfl
    | mem d i =>
      simp only [Hs.put, Hs.obj, reduceCtorEq, if_false, Loc.mem.injEq]
      by_cases hd : d = .dyn a
      · subst hd
        simp only [At, hh, upd_other _ _ hne, upd_same, hA, false_or]
        simp only [Option.some.injEq, Cell.blk.injEq, true_and]
        constructor
        · rintro ⟨c, o, rfl, h2, h3⟩
          simp only [Option.some.injEq] at h2
          subst h2
          simp only [List.getElem?_map, Option.map_eq_some_iff, Prod.mk.injEq] at h3
          obtain ⟨k', h3, rfl, rfl⟩ := h3
          exact ⟨i, rfl, h3, rfl⟩
        · rintro ⟨j, rfl, h1, rfl⟩
          exact ⟨_, _, rfl, rfl, by simp [h1]⟩
      · have : ¬ ∃ j, (d = .dyn a ∧ i = j) ∧ ks[j]? = some k ∧ z = .nil := by rintro ⟨j, ⟨h, -⟩, -⟩; exact hd h
        simp only [this, or_false]
        rw [← s.at_]
        simp only [At, hh]
        by_cases hd2 : d = .stk w.sp
        · subst hd2; simp [hp]
        · rw [upd_other _ _ hd2, upd_other _ _ hd]
  have hval : Val w'.heap = fun d u => B d u ∨ (d = .dyn a ∧ u = v) := by
    funext d u
    apply propext
    by_cases hd : d = .dyn a
    · subst hd
      simp only [Val, hh, upd_other _ _ hne, upd_same, hB, false_or, true_and]
      constructor
      · rintro ⟨c, o, h1, h2, h3⟩; cases h1; simp at h2; subst h2; exact h3.symm
      · rintro rfl; exact ⟨_, _, rfl, rfl, rfl⟩
    · simp only [hd, false_and, or_false]
      rw [← s.val]
      simp only [Val, hh]
      by_cases hd2 : d = .stk w.sp
      · subst hd2; simp [hp]
      · rw [upd_other _ _ hd2, upd_other _ _ hd]
  have : St zero ((A.obj (.dyn a) ks).put .sh (.var (.stk w.sp)) ⟨.dyn a, .dyn a⟩) (fun d u => B d u ∨ (d = .dyn a ∧ u = v)) (fun _ _ => False) w' := by
    refine ⟨hinv, ?_, hat, hval, fun _ _ h => h.elim⟩
    intro i hi
    rw [hh, upd_other _ _ (by intro e; cases e; omega), upd_other _ _ (by intro e; cases e)]
    exact s.fresh i (by omega)
  exact this.done (fun _ _ _ => rfl)

theorem wp_makeShared (s : G A B w) (he : w.err = none) (al : Nat) (v : V) (ks : List Kind) :
    wp (makeShared al v ks) w fun p w' => (∃ a, Made A B v ks w w' p a) ∨ Unmade A B w w' p := by
  have hsp := s.fresh w.sp (Nat.le_refl _)
  unfold makeShared
  rw [wp_bind]
  apply wp_allocCell
  · intro hno
    rw [wp_bind, wp_hasErr]
    refine wp_if_pos rfl ?_
    unfold newShared
    rw [wp_newObj]
    right
    refine ⟨⟨_, rfl, Nat.le_refl _⟩, .inl hno, by simp, rfl, rfl, ?_, ?_, ?_, ?_, s.newNil rfl rfl⟩
    · intro d
      show upd w.heap (.stk w.sp) (some (.var .sh .nil)) (.dyn d) = _
      rw [upd_other _ _ (by intro e; cases e)]
    · constructor
      · rintro ⟨q, hq, hq2⟩
        have hq : upd w.heap (.stk w.sp) (some (.var .sh .nil)) q = some .lost := hq
        by_cases h : q = .stk w.sp
        · subst h; simp at hq
        · rw [upd_other _ _ h] at hq; exact (hq2 hq).elim
      · intro h; exact (h hno).elim
    · intro q c hq
      show upd w.heap (.stk w.sp) (some (.var .sh .nil)) q = _
      rw [upd_other]
      · exact hq
      · rintro rfl; rw [hsp] at hq; cases hq
    · intro q hq
      by_cases h : q = .stk w.sp
      · exact .inr (.inl h)
      · have hq : upd w.heap (.stk w.sp) (some (.var .sh .nil)) q ≠ none := hq
        rw [upd_other _ _ h] at hq; exact .inl hq
  · intro a ha haddr
    have hn : Ptr.dyn a ≠ .null := by intro e; cases e
    have hne : ∀ i, (Ptr.dyn a) ≠ .stk i := by intro i e; cases e
    rw [wp_bind, wp_hasErr]
    refine wp_if_neg (by simp [he]) ?_
    rw [wp_bind, wp_modCell (upd_same ..) hn, wp_bind, wp_hasErr]
    refine wp_if_neg (by simp [he]) ?_
    simp only [World.setHeap, upd_upd]
    rw [wp_bind]
    apply wp_tryCtor
    · intro hctor
      refine wp_if_pos rfl ?_
      rw [wp_bind, wp_rdBlk (upd_same ..) hn, wp_bind, wp_setBlk (upd_same ..) hn, wp_bind, wp_hasErr]
      refine wp_if_neg (by simp [he, World.setHeap]) ?_
      simp only [World.setHeap, upd_upd]
      rw [wp_bind, wp_newObj, wp_bind]
      unfold addRef
      have hb : ∀ c : Cell V, upd (upd w.heap (.dyn a) (some c)) (.stk w.sp) (some (.var .sh ⟨.dyn a, .dyn a⟩)) (.dyn a) = some c := by
        intro c; rw [upd_other _ _ (hne _)]; exact upd_same ..
      rw [wp_bind, wp_rdBlk (hb _) hn, wp_setBlk (hb _) hn, wp_pure]
      left
      refine ⟨a, rfl, ha, haddr, hctor, he, rfl, rfl, rfl, ?_, ?_⟩
      · intro d hd hd2
        have h1 : Ptr.dyn d ≠ .dyn a := by intro e; cases e; exact hd rfl
        simp only [World.setHeap]
        rw [upd_other _ _ h1, upd_other _ _ (by intro e; cases e), upd_other _ _ h1]; exact hd2
      · refine s.newMade ha v ks rfl ?_
        simp only [World.setHeap]
        rw [← upd_comm _ _ _ (hne _), upd_upd]
    · intro hctor
      refine wp_if_neg (by simp) ?_
      rw [wp_bind, wp_hasErr]
      refine wp_if_pos rfl ?_
      rw [wp_bind]
      unfold guardFree deallocate
      have hb : ∀ c d : Cell V, upd (upd w.heap (.dyn a) (some c)) (.stk w.sp) (some d) (.dyn a) = some c := by
        intro c d; rw [upd_other _ _ (hne _)]; exact upd_same ..
      rw [wp_bind, wp_rd (upd_same ..) hn]
      simp only [wp_bind]
      rw [wp_newObj, wp_modCell (hb (.blk ⟨0, 0, none, defaultAlloc⟩) .lost) hn]
      have hb2 : ∀ c d e : Cell V, upd (upd (upd w.heap (.dyn a) (some c)) (.stk w.sp) (some d)) (.dyn a) (some e) (.dyn a) = some e :=
        fun _ _ _ => upd_same ..
      rw [wp_freeCell (hb2 (.blk ⟨0, 0, none, defaultAlloc⟩) .lost (.raw defaultAlloc)) (by simp [defaultAlloc])]
      simp only [World.setHeap, upd_upd]
      unfold newShared
      rw [wp_newObj]
      right
      have hheap : ∀ c d : Cell V, upd (upd (upd w.heap (.dyn a) (some c)) (.stk w.sp) (some d)) (.dyn a) none = upd w.heap (.stk w.sp) (some d) := by
        intro c d
        rw [upd_comm _ _ _ (hne _), upd_upd, upd_self]
        rw [upd_other _ _ (hne _)]; exact ha
      simp only [hheap]
      refine ⟨⟨_, rfl, Nat.le_succ _⟩, .inr hctor, by simp, rfl, rfl, ?_, ?_, ?_, ?_, ?_⟩
      · intro d
        show upd (upd w.heap (.stk w.sp) (some .lost)) (.stk (w.sp + 1)) (some (.var .sh .nil)) (.dyn d) = _
        rw [upd_other _ _ (by intro e; cases e), upd_other _ _ (by intro e; cases e)]
      · constructor
        · intro _ h; exact h a haddr ha
        · intro _
          refine ⟨.stk w.sp, ?_, by rw [hsp]; simp⟩
          show upd (upd w.heap (.stk w.sp) (some .lost)) (.stk (w.sp + 1)) (some (.var .sh .nil)) (.stk w.sp) = _
          rw [upd_other _ _ (by simp)]; exact upd_same ..
      · intro q c hq
        show upd (upd w.heap (.stk w.sp) (some .lost)) (.stk (w.sp + 1)) (some (.var .sh .nil)) q = _
        rw [upd_other, upd_other]
        · exact hq
        · rintro rfl; rw [hsp] at hq; cases hq
        · rintro rfl; rw [s.fresh _ (Nat.le_succ _)] at hq; cases hq
      · intro q hq
        have hq : upd (upd w.heap (.stk w.sp) (some .lost)) (.stk (w.sp + 1)) (some (.var .sh .nil)) q ≠ none := hq
        by_cases h : q = .stk (w.sp + 1)
        · exact .inr (.inl h)
        · by_cases h2 : q = .stk w.sp
          · right; right
            show upd (upd w.heap (.stk w.sp) (some .lost)) (.stk (w.sp + 1)) (some (.var .sh .nil)) q = _
            rw [upd_other _ _ h, h2]; exact upd_same ..
          · rw [upd_other _ _ h, upd_other _ _ h2] at hq; exact .inl hq
      · have s1 : G A B ({ w with sp := w.sp + 1, heap := upd w.heap (.stk w.sp) (some .lost) } : W V) := s.newLost rfl rfl
        exact s1.newNil rfl rfl

end

end Nestl.SP
