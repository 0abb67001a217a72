import Verif.SharedPtr.Depth
import Verif.SharedPtr.Demo
set_option autoImplicit false
/-
Property theorems about the recursion depth of the destruction of shared objects (C87).
-/
namespace Nestl.SP
variable {V : Type} {w : W V} {d : Nat}

/-! ### Upper bound -/

/-- C87: with room for as many nested activations of `release` as there are objects (counting those of which only weak
handles are left), every valid call does exactly what it does on an unlimited stack; in particular it does not overflow. -/
theorem release_depth (hr : Reach w) {c : Call V} (hv : Valid w c) (S : List Ptr) (hS : ∀ k l b, Refers w k l b → b ∈ S)
    (hd : S.length ≤ d) :
    (∀ r w', Runs (execD d c) (ready w) r w' ↔ Runs (exec c) (ready w) r w') ∧
      (∃ r w', Runs (execD d c) (ready w) r w') ∧ ¬ Faults (execD d c) (ready w) .stackOverflow := by
  have hok := hr.ok
  have hi : Inside S (ready w) := by
    intro b c hb
    obtain ⟨k, l, h⟩ := (hok.block_iff b).1 ⟨c, hb⟩
    exact hS k l b h
  obtain ⟨r, w', h1, -⟩ := (exec_ok hok hv).runs
  have h2 := execD_sim hd hi c _ _ h1
  refine ⟨?_, ⟨r, w', h2⟩, ?_⟩
  · intro r' w''
    constructor
    · intro h
      obtain ⟨rfl, rfl⟩ := Runs.det h h2
      exact h1
    · exact execD_sim hd hi c _ _
  · intro h
    unfold Faults at h
    rw [h2] at h
    cases h

/-! ### Lower bound -/

/-- A line of objects: each has one member, a `shared_ptr` to the next object, which has no other owner. -/
def Line (H : Heap V) : List Ptr → Prop
  | [] => True
  | b :: L => b ≠ .null ∧ (∃ c o x, H b = some (.blk c) ∧ c.use = 1 ∧ c.obj = some o ∧ o.mem = [(.sh, x)] ∧
      ∀ b', L.head? = some b' → x.ref = b') ∧ Line H L

theorem Line.congr {H H' : Heap V} {L : List Ptr} (h : Line H L) (he : ∀ b ∈ L, H' b = H b) : Line H' L := by
  induction L with
  | nil => trivial
  | cons b L ih =>
    obtain ⟨h0, ⟨c, o, x, h1, h2⟩, h3⟩ := h
    exact ⟨h0, ⟨c, o, x, by rw [he b (by simp)]; exact h1, h2⟩, ih h3 fun q hq => he q (by simp [hq])⟩

theorem Line.blk {H : Heap V} {L : List Ptr} (h : Line H L) {b : Ptr} (hb : b ∈ L) : ∃ c, H b = some (.blk c) := by
  induction L with
  | nil => cases hb
  | cons c L ih =>
    obtain ⟨-, ⟨c, o, x, h1, -⟩, h3⟩ := h
    rcases List.mem_cons.1 hb with rfl | hb
    · exact ⟨c, h1⟩
    · exact ih h3 hb

theorem faults_releaseD {b : Ptr} {L : List Ptr} (h : Line w.heap (b :: L)) (hn : (b :: L).Nodup) (hd : d < L.length + 1) :
    Faults (releaseD d b) w .stackOverflow := by
  induction d generalizing w b L with
  | zero => rfl
  | succ d ih =>
    obtain ⟨h0, ⟨c, o, x, h1, h2, h3, h4, h5⟩, h6⟩ := h
    cases L with
    | nil => simp at hd
    | cons b' L =>
      have hx := h5 b' rfl
      have hb' := h6.1
      unfold releaseD releaseW
      refine wp.faults_bind ?_
      rw [wp_rdBlk h1 h0]
      refine wp.faults_bind ?_
      rw [wp_assertM]
      refine ⟨by simp [h2], ?_⟩
      refine wp.faults_bind ?_
      rw [wp_setBlk h1 h0, if_pos (by omega)]
      refine Faults.bind ?_
      unfold destroyValueW
      refine wp.faults_bind ?_
      rw [wp_rdObj (upd_same ..) (by exact h3) h0]
      refine Faults.bind ?_
      rw [h4]
      show Faults (destroyMembersW _ b 1) _ _
      unfold destroyMembersW
      refine wp.faults_bind ?_
      unfold takeMem
      rw [wp_bind, wp_rdBlk (upd_same ..) h0, wp_bind, wp_rdObj (upd_same ..) (by exact h3) h0, h4]
      show wp (setBlk b _ >>= _) _ _
      rw [wp_bind, wp_setBlk (upd_same ..) h0, wp_pure]
      rw [if_neg (by rw [hx]; exact hb')]
      refine Faults.bind ?_
      show Faults (releaseD d x.ref) _ _
      rw [hx]
      rw [List.nodup_cons] at hn
      refine ih (L := L) (h6.congr ?_) hn.2 (by simp at hd; omega)
      intro q hq
      have : q ≠ b := by rintro rfl; exact hn.1 hq
      simp [upd_other _ _ this]

/-- The objects of `L` form a line: the variable `p` is the only owner of the first object, every object has one member, and
this member is a `shared_ptr` and the only owner of the next object. -/
def InLine (w : W V) : Loc → List Ptr → Prop
  | l, [] => ∃ x, At w.heap .sh l x
  | l, b :: L => (∀ l', Refers w .sh l' b ↔ l' = l) ∧ (∀ k i z, At w.heap k (.mem b i) z → k = .sh ∧ i = 0) ∧ InLine w (.mem b 0) L

theorem InLine.line (hok : Ok w) {l : Loc} {L : List Ptr} (h : InLine w l L) : Line w.heap L := by
  induction L generalizing l with
  | nil => trivial
  | cons b L ih =>
    obtain ⟨h1, h2, h3⟩ := h
    have hr := (h1 l).2 rfl
    refine ⟨hr.1, ?_, ih h3⟩
    obtain ⟨c, hc⟩ := hok.block hr
    obtain ⟨g1, -, g3, -⟩ := hok.counts hc
    have hu : c.use = 1 := g1.unique ⟨[l], by simp, by simpa using fun x => (h1 x).symm, rfl⟩
    have ho : c.obj ≠ none := g3.2 (by omega)
    cases ho' : c.obj with
    | none => exact absurd ho' ho
    | some o =>
      have hx : ∃ x, At w.heap .sh (.mem b 0) x := by
        cases L with
        | nil => exact h3
        | cons b' L =>
          obtain ⟨-, z, hz, -⟩ := (h3.1 _).2 rfl
          exact ⟨z, hz⟩
      obtain ⟨x, hx⟩ := hx
      have hx' := hx
      obtain ⟨c', o', e1, e2, e3⟩ := hx
      rw [hc] at e1; cases e1
      rw [ho'] at e2; cases e2
      refine ⟨c, o, x, hc, hu, ho', ?_, ?_⟩
      · cases hm : o.mem with
        | nil => rw [hm] at e3; cases e3
        | cons m l =>
          rw [hm] at e3; cases e3
          cases l with
          | nil => rfl
          | cons m' l =>
            have := (h2 m'.1 1 m'.2 ⟨c, o, hc, ho', by rw [hm]; rfl⟩).2
            cases this
      · intro b' hb'
        cases L with
        | nil => cases hb'
        | cons b'' L =>
          cases hb'
          obtain ⟨-, z, hz, rfl⟩ := (h3.1 _).2 rfl
          obtain ⟨-, rfl⟩ := hx'.det hz
          rfl

/-- C87, the bound is sharp: to destroy a line of `n` objects, `n` nested activations of `release` are necessary. -/
theorem release_needs_depth (hr : Reach w) {p : Ptr} {L : List Ptr} (hL : InLine w (.var p) L) (hn : L.Nodup) (hd : d < L.length) :
    Faults (execD d (.dropShared p)) (ready w) .stackOverflow := by
  have hok := hr.ok
  cases L with
  | nil => cases hd
  | cons b L =>
    have hl := hL.line hok
    obtain ⟨hb, z, hz, rfl⟩ := (hL.1 _).2 rfl
    have hz : w.heap p = some (.var .sh z) := hz
    obtain ⟨dom, hi⟩ := hok.g.inv
    obtain ⟨i, rfl⟩ := hi.shVar _ _ _ hz
    refine Faults.bind ?_
    unfold dropSharedD
    refine wp.faults_bind ?_
    rw [wp_getH (w := ready w) (k := .sh) (l := .var (.stk i)) hz (by exact hok.g.null)]
    refine wp.faults_bind ?_
    rw [wp_dropObj (w := ready w) hz]
    rw [if_neg hb]
    refine faults_releaseD (hl.congr ?_) hn hd
    intro q hq
    obtain ⟨c, hc⟩ := hl.blk hq
    have : q ≠ .stk i := by rintro rfl; rw [hz] at hc; cases hc
    exact upd_other _ _ this

/-! ### Lines of any length can be built -/

section
variable {w' : W V} {l m n l0 : Loc} {b : Ptr} {x : Hnd} {L : List Ptr}

/-- The memory after a new object has been put in front of a line: `l` was the owner of the line, `m` is the member of the new
object `b`, and `n` is the owner of the new object. -/
structure Front (w w' : W V) (l m n : Loc) (x : Hnd) (b : Ptr) : Prop where
  at_ : ∀ k l' z, At w'.heap k l' z ↔ (l' = m ∧ k = .sh ∧ z = x) ∨ (l' = l ∧ k = .sh ∧ z = .nil) ∨ (l' = n ∧ k = .sh ∧ z = ⟨b, b⟩) ∨
    (l' ≠ l ∧ l' ≠ m ∧ l' ≠ n ∧ At w.heap k l' z)
  old : At w.heap .sh l x
  newM : ∀ k z, ¬ At w.heap k m z
  newN : ∀ k z, ¬ At w.heap k n z
  fresh : ∀ k l z, At w.heap k l z → z.ref ≠ b
  null : b ≠ .null
  lm : l ≠ m
  ln : l ≠ n
  mn : m ≠ n

theorem InLine.owner (h : InLine w l L) : ∃ x, At w.heap .sh l x := by
  cases L with
  | nil => exact h
  | cons b L =>
    obtain ⟨-, z, hz, -⟩ := (h.1 _).2 rfl
    exact ⟨z, hz⟩

theorem Front.keep (hf : Front w w' l m n x b) (hm : ∃ i, m = .mem b i) (hl : ∃ p, l = .var p) (hn : ∃ p, n = .var p)
    (h0 : l0 ≠ l) (h : InLine w l0 L) : InLine w' l0 L := by
  obtain ⟨pl, rfl⟩ := hl
  obtain ⟨pn, rfl⟩ := hn
  obtain ⟨im, rfl⟩ := hm
  obtain ⟨z0, hz0⟩ := h.owner
  have h1 : l0 ≠ .mem b im := fun e => hf.newM _ _ (e ▸ hz0)
  have h2 : l0 ≠ .var pn := fun e => hf.newN _ _ (e ▸ hz0)
  induction L generalizing l0 z0 with
  | nil => exact ⟨z0, (hf.at_ _ _ _).2 (.inr (.inr (.inr ⟨h0, h1, h2, hz0⟩)))⟩
  | cons c L ih =>
    obtain ⟨g1, g2, g3⟩ := h
    have hc := (g1 _).2 rfl
    have hcb : c ≠ b := by
      obtain ⟨-, z, hz, rfl⟩ := hc
      exact hf.fresh _ _ _ hz
    have hcx : x.ref ≠ c := by
      rintro rfl
      exact h0 ((g1 _).1 ⟨hc.1, x, hf.old, rfl⟩).symm
    refine ⟨?_, ?_, ?_⟩
    · intro l'
      constructor
      · rintro ⟨hn, z, hz, rfl⟩
        rcases (hf.at_ _ _ _).1 hz with ⟨rfl, -, rfl⟩ | ⟨rfl, -, rfl⟩ | ⟨rfl, -, rfl⟩ | ⟨-, -, -, hz⟩
        · exact absurd rfl hcx
        · exact absurd rfl hn
        · exact absurd rfl hcb
        · exact (g1 _).1 ⟨hn, z, hz, rfl⟩
      · rintro rfl
        obtain ⟨hn, z, hz, rfl⟩ := hc
        exact ⟨hn, z, (hf.at_ _ _ _).2 (.inr (.inr (.inr ⟨h0, h1, h2, hz⟩))), rfl⟩
    · intro k i z hz
      rcases (hf.at_ _ _ _).1 hz with ⟨e, -, -⟩ | ⟨e, -, -⟩ | ⟨e, -, -⟩ | ⟨-, -, -, hz⟩
      · cases e; exact absurd rfl hcb
      · cases e
      · cases e
      · exact g2 _ _ _ hz
    · obtain ⟨z1, hz1⟩ := g3.owner
      exact ih g3 (by simp) z1 hz1 (by intro e; cases e; exact hcb rfl) (by simp)

theorem Front.line {p q : Ptr} (hf : Front w w' (.var p) (.mem b 0) (.var q) x b)
    (hmem : ∀ k i z, At w.heap k (.mem b i) z → False) (h : InLine w (.var p) L) : InLine w' (.var q) (b :: L) := by
  refine ⟨?_, ?_, ?_⟩
  · intro l'
    constructor
    · rintro ⟨hn, z, hz, e⟩
      rcases (hf.at_ _ _ _).1 hz with ⟨rfl, -, rfl⟩ | ⟨rfl, -, rfl⟩ | ⟨rfl, -, rfl⟩ | ⟨-, -, -, hz⟩
      · exact absurd e (hf.fresh _ _ _ hf.old)
      · exact absurd e.symm hn
      · rfl
      · exact absurd e (hf.fresh _ _ _ hz)
    · rintro rfl
      exact ⟨hf.null, _, (hf.at_ _ _ _).2 (.inr (.inr (.inl ⟨rfl, rfl, rfl⟩))), rfl⟩
  · intro k i z hz
    rcases (hf.at_ _ _ _).1 hz with ⟨e, rfl, -⟩ | ⟨e, -, -⟩ | ⟨e, -, -⟩ | ⟨-, -, -, hz⟩
    · cases e; exact ⟨rfl, rfl⟩
    · cases e
    · cases e
    · exact (hmem _ _ _ hz).elim
  · cases L with
    | nil => exact ⟨x, (hf.at_ _ _ _).2 (.inl ⟨rfl, rfl, rfl⟩)⟩
    | cons c L =>
      obtain ⟨g1, g2, g3⟩ := h
      have hc := (g1 _).2 rfl
      have hx : x.ref = c := by
        obtain ⟨-, z, hz, rfl⟩ := hc
        rw [(hf.old.det hz).2]
      refine ⟨?_, ?_, ?_⟩
      · intro l'
        constructor
        · rintro ⟨hn, z, hz, rfl⟩
          rcases (hf.at_ _ _ _).1 hz with ⟨rfl, -, rfl⟩ | ⟨rfl, -, rfl⟩ | ⟨rfl, -, rfl⟩ | ⟨hne, -, -, hz⟩
          · rfl
          · exact absurd rfl hn
          · exact absurd hx (hf.fresh _ _ _ hf.old)
          · exact absurd ((g1 _).1 ⟨hn, z, hz, rfl⟩) hne
        · rintro rfl
          exact ⟨hc.1, x, (hf.at_ _ _ _).2 (.inl ⟨rfl, rfl, rfl⟩), hx⟩
      · intro k i z hz
        rcases (hf.at_ _ _ _).1 hz with ⟨e, rfl, -⟩ | ⟨e, -, -⟩ | ⟨e, -, -⟩ | ⟨-, -, -, hz⟩
        · cases e; exact ⟨rfl, rfl⟩
        · cases e
        · cases e
        · exact g2 _ _ _ hz
      · exact hf.keep ⟨0, rfl⟩ ⟨p, rfl⟩ ⟨q, rfl⟩ (by simp) g3

end

theorem InLine.mem_refers {l : Loc} {L : List Ptr} (h : InLine w l L) {b : Ptr} (hb : b ∈ L) : ∃ l, Refers w .sh l b := by
  induction L generalizing l with
  | nil => cases hb
  | cons c L ih =>
    rcases List.mem_cons.1 hb with rfl | hb
    · exact ⟨l, (h.1 _).2 rfl⟩
    · exact ih h.2.2 hb

/-- A line of `n` objects. -/
theorem line_reach (v : V) (n : Nat) : ∃ (w : W V) (p : Ptr) (L : List Ptr), Reach w ∧ Good w ∧ InLine w (.var p) L ∧ L.Nodup ∧
    L.length = n ∧ (∀ l z, ¬ At w.heap .wk l z) ∧ ∀ k l b, Refers w k l b → b ∈ L := by
  induction n with
  | zero =>
    let env : Env (Cell V) := { addr := fun n => some n, ctor := fun _ => true, junk := fun _ => .lost }
    have hok := ok_start env
    obtain ⟨r, w', hr, -⟩ := (exec_ok hok (c := .newShared) trivial).runs
    refine ⟨w', .stk 0, [], .step (.start env) (c := .newShared) trivial hr, ?_, ?_, by simp, rfl, ?_, ?_⟩
    · cases hr
      exact ⟨fun k => ⟨k, rfl⟩, fun _ _ h => Option.some.inj h, fun _ => rfl, fun a h => absurd rfl h⟩
    · cases hr
      exact ⟨.nil, rfl⟩
    · cases hr
      rintro (p | ⟨b, i⟩) z h
      · have h : upd _ _ _ p = _ := h
        unfold upd at h
        split at h
        · cases h
        · cases h
      · obtain ⟨c, o, h, -⟩ := h
        have h : upd _ _ _ b = _ := h
        unfold upd at h
        split at h
        · cases h
        · cases h
    · cases hr
      rintro k (p | ⟨b, i⟩) c ⟨hn, z, h, rfl⟩
      · have h : upd _ _ _ p = _ := h
        unfold upd at h
        split at h
        · cases h; exact absurd rfl hn
        · cases h
      · obtain ⟨c, o, h, -⟩ := h
        have h : upd _ _ _ b = _ := h
        unfold upd at h
        split at h
        · cases h
        · cases h
  | succ n ih =>
    obtain ⟨w, p, L, hr, hg, hL, hnd, hlen, hwk, hall⟩ := ih
    have hok := hr.ok
    have hG : G (At w.heap) (Val w.heap) (ready w) := hok.ready.g
    have hgr : Good (ready w) := ⟨hg.some, hg.inj, hg.ctor, hg.past⟩
    obtain ⟨q, w1, hr1, hm⟩ := (wp_makeShared hG rfl 0 v [.sh]).runs
    have r1 : Reach w1 := .step hr (c := .makeShared 0 v [.sh]) (r := some q) trivial (runs_then hr1 rfl)
    rcases hm with ⟨a, hm⟩ | hu
    case inr => exact absurd hu.refused hgr.not_refused
    obtain ⟨x, hx⟩ := hL.owner
    have hfree : w.heap (.dyn a) = none := hm.free
    have hq : ∀ k z, ¬ At w.heap k (.var q) z := by
      rw [hm.var]; exact hG.no_var _ (Nat.le_refl _)
    have hpq : p ≠ q := by rintro rfl; exact hq _ _ hx
    have hmem : ∀ k i z, At w.heap k (.mem (.dyn a) i) z → False := by
      rintro k i z ⟨c, o, h, -⟩
      rw [hfree] at h; cases h
    have hfr : ∀ k l z, At w.heap k l z → z.ref ≠ .dyn a := by
      intro k l z hz e
      obtain ⟨c, hc⟩ := hok.g.target hz (by rw [e]; simp)
      rw [e, hfree] at hc; cases hc
    let A1 : Hs := (Hs.obj (At w.heap) (.dyn a) [.sh]).put .sh (.var q) ⟨.dyn a, .dyn a⟩
    have hA1 : At w1.heap = A1 := hm.g.at_
    have y1 : A1 .sh (.mem (.dyn a) 0) .nil := Hs.put_ne (by simp) (.inr ⟨0, rfl, rfl, rfl⟩)
    have y2 : A1 .sh (.var p) x := Hs.put_ne (by simpa using hpq) (.inl hx)
    have hG1 : G A1 (Val w1.heap) (ready w1) := by
      have := r1.ok.ready.g
      rw [show (ready w1).heap = w1.heap from rfl, hA1] at this
      exact this
    obtain ⟨⟨⟩, w2, hr2, hf2, s2⟩ := (hG1.wp_swap y1 y2 (by simp) (Q := fun _ w' => Fr (ready w1) w' ∧
      St zero ((A1.put .sh (.mem (.dyn a) 0) x).put .sh (.var p) .nil) (Val w1.heap) (L0 A1) w') (fun w' f _ s' => ⟨f, s'⟩)).runs
    have r2 : Reach w2 := .step r1 (c := .swapShared (.mem (.dyn a) 0) (.var p)) (r := none)
      ⟨⟨_, hA1 ▸ y1⟩, ⟨_, hA1 ▸ y2⟩⟩ (runs_then hr2 rfl)
    have hA2 := s2.at_
    have hfront : Front w w2 (.var p) (.mem (.dyn a) 0) (.var q) x (.dyn a) := by
      refine ⟨?_, hx, fun k z h => hmem _ _ _ h, hq, hfr, by simp, by simp, by simpa using hpq, by simp⟩
      intro k l z
      rw [hA2]
      simp only [Hs.put, A1, Hs.obj]
      by_cases e1 : l = .var p
      · subst e1; simp [hpq]
      · by_cases e2 : l = .mem (.dyn a) 0
        · subst e2; simp
        · by_cases e3 : l = .var q
          · subst e3; simp [Ne.symm hpq]
          · simp only [e1, e2, e3, if_false, false_and, false_or, ne_eq, not_false_eq_true, true_and]
            constructor
            · rintro (h | ⟨i, rfl, h, -⟩)
              · exact h
              · cases i with
                | zero => exact absurd rfl e2
                | succ i => simp at h
            · exact .inl
    refine ⟨w2, q, .dyn a :: L, r2, ?_, hfront.line hmem hL, ?_, by simp [hlen], ?_, ?_⟩
    · refine ⟨?_, ?_, ?_, ?_⟩
      · rw [hf2.env]; show ∀ k, ∃ a, w1.env.addr k = some a; rw [hm.env]; exact hg.some
      · rw [hf2.env]; show ∀ i j, w1.env.addr i = w1.env.addr j → i = j; rw [hm.env]; exact hg.inj
      · rw [hf2.env]; show ∀ k, w1.env.ctor k = true; rw [hm.env]; exact hg.ctor
      · intro d hd
        rw [hf2.env, hf2.nAlloc]
        show ∃ k, k < w1.nAlloc ∧ w1.env.addr k = some d
        rw [hm.env, hm.nAlloc]
        show ∃ k, k < w.nAlloc + 1 ∧ w.env.addr k = some d
        have h1 : w1.heap (.dyn d) ≠ none := fun e => hd (hf2.dyn d e)
        by_cases e : d = a
        · subst e; exact ⟨w.nAlloc, by omega, hm.addr⟩
        · obtain ⟨k, h2, h3⟩ := hg.past d (fun h => h1 (hm.dyn d e h))
          exact ⟨k, by omega, h3⟩
    · rw [List.nodup_cons]
      refine ⟨?_, hnd⟩
      intro hb
      obtain ⟨l, -, z, hz, e⟩ := hL.mem_refers hb
      exact hfr _ _ _ hz e
    · intro l z hz
      rcases (hfront.at_ _ _ _).1 hz with ⟨-, e, -⟩ | ⟨-, e, -⟩ | ⟨-, e, -⟩ | ⟨-, -, -, hz⟩
      · cases e
      · cases e
      · cases e
      · exact hwk _ _ hz
    · rintro k l c ⟨hn, z, hz, rfl⟩
      rcases (hfront.at_ _ _ _).1 hz with ⟨-, -, rfl⟩ | ⟨-, -, rfl⟩ | ⟨-, -, rfl⟩ | ⟨-, -, -, hz⟩
      · exact List.mem_cons_of_mem _ (hall _ _ _ ⟨hn, _, hx, rfl⟩)
      · exact absurd rfl hn
      · simp
      · exact List.mem_cons_of_mem _ (hall _ _ _ ⟨hn, _, hz, rfl⟩)

/-- C87: no fixed stack suffices for all structures of shared objects: for every `d` a program can build, with valid calls and
with an allocator that never fails, objects whose destruction by one more valid call needs more than `d` nested activations of
`release`. With `d + 1` of them the same call ends normally. -/
theorem release_depth_unbounded (v : V) (d : Nat) : ∃ (w : W V) (p : Ptr), Reach w ∧ Good w ∧ Valid w (.dropShared p) ∧
    Faults (execD d (.dropShared p)) (ready w) .stackOverflow ∧ ∃ r w', Runs (execD (d + 1) (.dropShared p)) (ready w) r w' := by
  obtain ⟨w, p, L, hr, hg, hL, hnd, hlen, hwk, hall⟩ := line_reach v (d + 1)
  have hv : Valid w (.dropShared p) := by
    refine ⟨hL.owner, ?_⟩
    intro b x i z _ _ hz _
    exact absurd hz.2 (hwk _ _)
  exact ⟨w, p, hr, hg, hv, release_needs_depth hr hL hnd (by omega), (release_depth hr hv L hall (by omega)).2.1⟩

/-! ### Examples -/

/-- The state of `Demo.d5` (two objects owning each other through `shared_ptr`/`weak_ptr` members): two activations suffice for
every valid call. -/
example {c : Call Nat} (hv : Valid Demo.d5 c) : ¬ Faults (execD 2 c) (ready Demo.d5) .stackOverflow := by
  refine (release_depth Demo.r5 hv [Demo.a, Demo.b] ?_ (by simp)).2.2
  intro k l b h
  obtain ⟨c, hc⟩ := Demo.r5.ok.block h
  rcases Demo.blk5 hc with rfl | rfl <;> simp

/-- A line of three objects exists, and dropping its owner overflows a stack with room for two activations but not one with room
for three. -/
example : ∃ (w : W Nat) (p : Ptr), Reach w ∧ Faults (execD 2 (.dropShared p)) (ready w) .stackOverflow ∧
    ∃ r w', Runs (execD 3 (.dropShared p)) (ready w) r w' := by
  obtain ⟨w, p, h1, -, -, h2, h3⟩ := release_depth_unbounded (7 : Nat) 2
  exact ⟨w, p, h1, h2, h3⟩

end Nestl.SP
