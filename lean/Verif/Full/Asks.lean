import Verif.RBTree.AsksCopy
import Verif.Report
set_option autoImplicit false
/-
C112 (trees): how many nodes a call requests, and how many elements it constructs.  An insertion that looks for the key first
requests a node only if the element is added; `emplace` and the insertions of equal keys request exactly one in any case; a
copy requests one per element and copies the comparator; all other calls request nothing and do not fail.
-/
namespace Nestl
open Nestl.RB

namespace RB
variable {K : Type} {w w' : W K}

/-- If the cells `A` of the heap become the cells `B`, the number of requests is the difference of their numbers. -/
theorem Grown.count {e : Prop} {l : List Nat} {A B : List Ptr} (hg : Grown e w w' l) (hA : A.Nodup) (hB : B.Nodup)
    (hdyn : ∀ q ∈ B, ∃ a, q = .dyn a) (hsub : ∀ q ∈ A, q ∈ B) (hin : ∀ q ∈ A, w.heap q ≠ none) (hin' : ∀ q ∈ B, w'.heap q ≠ none)
    (hnew : ∀ q ∈ B, q ∉ A → w.heap q = none) (hfr : ∀ a, Ptr.dyn a ∉ B → w'.heap (.dyn a) ≠ none → w.heap (.dyn a) ≠ none) :
    A.length + l.length = B.length := by
  have hp : List.Perm (A ++ l.map Ptr.dyn) B := by
    refine (List.perm_ext_iff_of_nodup ?_ hB).2 ?_
    · refine List.nodup_append.2 ⟨hA, ?_, ?_⟩
      · exact (List.pairwise_map).2 (hg.nodup.imp fun h e => h (by cases e; rfl))
      · intro q hq q' hq' ee
        subst ee
        obtain ⟨a, ha, rfl⟩ := List.mem_map.1 hq'
        exact hin _ hq (hg.fresh a ha)
    · intro q
      rw [List.mem_append, List.mem_map]
      constructor
      · rintro (h | ⟨a, ha, rfl⟩)
        · exact hsub q h
        · refine Classical.byContradiction fun hn => ?_
          exact hfr a hn ((hg.heap a).2 (.inr ha)) (hg.fresh a ha)
      · intro hq
        by_cases hqA : q ∈ A
        · exact .inl hqA
        · obtain ⟨a, rfl⟩ := hdyn q hq
          rcases (hg.heap a).1 (hin' _ hq) with h | h
          · exact absurd (hnew _ hq hqA) h
          · exact .inr ⟨a, h, rfl⟩
  have := hp.length_eq
  simpa using this

/-- At most one request and one construction. -/
def Once {α : Type} (m : M (W K) α) : Prop :=
  ∀ w a w', Runs m w a w' → w.err = none → w'.nAlloc ≤ w.nAlloc + 1 ∧ w'.nCtor ≤ w.nCtor + 1

theorem Once.costs {α : Type} {m : M (W K) α} (h : Costs 1 1 m) : Once m :=
  fun w a w' hr he => ⟨(h w a w' hr he).1, (h w a w' hr he).2.1⟩

theorem Once.quiet {α : Type} {m : M (W K) α} (h : Quiet m) : Once m := by
  intro w a w' hr he
  have := h w a w' hr
  rw [this.allocs, this.ctors]
  omega

theorem Once.bindQ {α β : Type} {m : M (W K) α} {k : α → M (W K) β} (h : Quiet m) (hk : ∀ a, Once (k a)) : Once (m >>= k) := by
  intro w b w2 hr he
  obtain ⟨a, w1, h1, h3⟩ := runs_steps hr
  have h4 := h _ _ _ h1
  have := hk a _ _ _ h3 (h4.err.trans he)
  rwa [h4.allocs, h4.ctors] at this

theorem Once.then {α β : Type} {m : M (W K) α} {k : α → M (W K) β} (h : Once m) (hk : ∀ a, Quiet (k a)) : Once (m >>= k) := by
  intro w b w2 hr he
  obtain ⟨a, w1, h1, h3⟩ := runs_steps hr
  have h4 := hk a _ _ _ h3
  have := h _ _ _ h1 he
  rwa [← h4.allocs, ← h4.ctors] at this

theorem Once.ite {α : Type} {c : Prop} {inst : Decidable c} {m n : M (W K) α} (hm : Once m) (hn : Once n) :
    Once (@_root_.ite _ c inst m n) := by split <;> assumption

theorem Once.insertUnique (lt : K → K → Bool) (hdr : Ptr) (v : K) : Once (insertUnique lt hdr v) := by
  unfold RB.insertUnique
  exact .bindQ (by quietly) fun _ => .ite (.then (.costs (Costs.insert_ _ _ _ _ _)) fun _ => .pure _) (.quiet (.pure _))

theorem Once.insertUniqueAt (lt : K → K → Bool) (hdr pos : Ptr) (v : K) : Once (insertUniqueAt lt hdr pos v) := by
  unfold RB.insertUniqueAt
  exact .bindQ (by quietly) fun _ => .ite (.costs (Costs.insert_ _ _ _ _ _)) (.quiet (.pure _))

end RB

namespace Full
open Nestl.Set Nestl.Multi
variable {K : Type} {lt : K → K → Bool} {w w' : W K} {c : FCall K} {r : FRes K} {s : Ptr} {L L' : List (Ptr × K)}

/-! ### The kinds of calls -/

/-- Calls that neither insert an element nor copy another object. -/
def AddsNothing : FCall K → Prop
  | .multi (.base (.insert _ _)) => False
  | .multi (.base (.copy _ d s)) => d = s
  | .multi (.equal _ _ _) => False
  | .unique _ _ _ => False
  | _ => True

/-- Insertions of a value into `s`, unless an equivalent key is there. -/
def InsertsInto (s : Ptr) : FCall K → Prop
  | .multi (.base (.insert x _)) => x = s
  | .unique (.at _) x _ => x = s
  | _ => False

/-- Insertions of equal keys, and emplacement. -/
def AlwaysBuilds : FCall K → Prop
  | .multi (.equal _ _ _) => True
  | .unique .emplace _ _ => True
  | .unique (.emplaceAt _) _ _ => True
  | _ => False

theorem InsertsInto.unique {m : UMode} {x : Ptr} {k : K} (h : InsertsInto s (.unique m x k)) : x = s := by
  cases m with
  | «at» pos => exact h
  | _ => exact h.elim

/-! ### The requests -/

/-- C112 (trees): calls that neither insert an element nor copy another object request no memory, construct no element and
never fail. -/
theorem tree_requests_nothing (hc : AddsNothing c) (h : Runs (fexec lt c) (ready w) r w') :
    w'.nAlloc = w.nAlloc ∧ w'.nCtor = w.nCtor ∧ w'.err = none := by
  have hq : Quiet (fexec lt c) := by
    cases c with
    | multi c =>
      cases c with
      | equal => exact hc.elim
      | base c =>
        refine .bind (.bind (Quiet.index _) fun _ => .bind (?_ : Quiet (exec lt c)) fun _ => .pure _) fun _ => .pure _
        cases c with
        | insert => exact hc.elim
        | copy prop d s =>
          obtain rfl : d = s := hc
          dsimp only [exec]
          unfold copyNothrow
          simp only [ne_eq, not_true_eq_false, if_false]
          quietly
        | _ => dsimp only [exec]; quietly
    | unique => exact hc.elim
    | _ => dsimp only [fexec]; quietly
  have := hq _ _ _ h
  exact ⟨this.allocs, this.ctors, this.err⟩

/-- C112 (trees): an insertion of an equal key and every emplacement requests one node and constructs one element, also if an
equivalent key is there already. -/
theorem tree_requests_one (hc : AlwaysBuilds c) (h : Runs (fexec lt c) (ready w) r w') :
    w'.nAlloc ≤ w.nAlloc + 1 ∧ w'.nCtor ≤ w.nCtor + 1 ∧ (w'.err = none → w'.nAlloc = w.nAlloc + 1 ∧ w'.nCtor = w.nCtor + 1) := by
  have hq : Costs 1 1 (fexec lt c) := by
    unfold fexec
    cases c with
    | multi c =>
      unfold mexec mrun
      cases c with
      | base => exact hc.elim
      | equal m s k =>
        refine .then (.bindQ (Quiet.index _) fun _ => .then ?_ fun _ => .pure _) fun _ => .pure _
        cases m with
        | upper => exact .then (Costs.emplaceEqual _ _ _) fun _ => .pure _
        | lower => exact .then (Costs.insertEqualLower _ _ _) fun _ => .pure _
        | hint pos => exact .then (Costs.emplaceHintEqual _ _ _ _) fun _ => .pure _
    | unique m s k =>
      cases m with
      | «at» pos => exact hc.elim
      | emplace => exact .then (Costs.emplaceUnique _ _ _) fun _ => .pure _
      | emplaceAt pos => exact .then (Costs.emplaceHintUnique _ _ _ _) fun _ => .pure _
    | _ => exact hc.elim
  exact hq (ready w) _ _ h rfl

theorem once_insert (hc : InsertsInto s c) : Once (fexec lt c) ∧ Grows True (fexec lt c) := by
  unfold fexec
  cases c with
  | multi c =>
    unfold mexec mrun
    cases c with
    | equal => exact hc.elim
    | base c =>
      unfold exec
      cases c with
      | insert x k =>
        exact ⟨.then (.bindQ (Quiet.index _) fun _ => .then (.then (Once.insertUnique _ _ _) fun _ => .pure _) fun _ => .pure _)
            fun _ => .pure _,
          .then (.bindK (.pure _) fun _ => .then (.then (Grows.insertUnique _ _ _) fun _ => .pure _) fun _ => .pure _)
            fun _ => .pure _⟩
      | _ => exact hc.elim
  | unique m x k =>
    cases m with
    | «at» pos => exact ⟨.then (Once.insertUniqueAt _ _ _ _) fun _ => .pure _, .then (Grows.insertUniqueAt _ _ _ _) fun _ => .pure _⟩
    | _ => exact hc.elim
  | _ => exact hc.elim

theorem grown_same {l : List Nat} (hg : Grown True w w' l) (hh : w'.heap = w.heap) : l.length = 0 := by
  cases l with
  | nil => rfl
  | cons a l =>
    have := (hg.heap a).2 (.inr (.head _))
    rw [hh] at this
    exact absurd (hg.fresh a (.head _)) this

theorem grown_change {l : List Nat} {o o' : Nat} {t t' : T K} (hg : Grown True w w' l) (ht : Tree w.heap s o t)
    (ht' : Tree w'.heap s o' t') (hc : Change w w' s t t') (hsub : ∀ q ∈ t.ptrs, q ∈ t'.ptrs) :
    t.nodes.length + l.length = t'.nodes.length := by
  have := Grown.count hg ht.ok.nodup ht'.ok.nodup ht'.ok.dyn hsub
    (fun q hq => by obtain ⟨n, hn, -⟩ := Rep_alloc ht.rep q hq; rw [hn]; simp)
    (fun q hq => by obtain ⟨n, hn, -⟩ := Rep_alloc ht'.rep q hq; rw [hn]; simp)
    (fun q hq hn => ((hc.fresh q hq).resolve_left hn).none)
    (fun a ha h => by
      rwa [hc.frame _ (by rintro rfl; obtain ⟨i, hi⟩ := ht.ok.hdr; cases hi) (fun h => ha (hsub _ h)) ha] at h)
  simpa [T.ptrs] using this

theorem step_effect {P : List (Ptr × K) → Prop} (hI : InvP P w) (hv : FValid lt w c) (h : Runs (fexec lt c) (ready w) r w') :
    FEffectS False lt (ready w) c r w' :=
  Runs.wp (fexec_effectS (S := False) hI.ready (fun _ _ _ _ _ h => h.elim) (hv.ready hI) rfl) h

/-- See `tree_requests_insert`. -/
theorem insert_requests {P : List (Ptr × K) → Prop} (hI : InvP P w) (hv : FValid lt w c) (hc : InsertsInto s c) (hL : Contents w s L)
    (h : Runs (fexec lt c) (ready w) r w') (hL' : Contents w' s L') :
    w'.nAlloc ≤ w.nAlloc + 1 ∧ w'.nCtor ≤ w.nCtor + 1 ∧
      (w'.err = none → w'.nAlloc + L.length = w.nAlloc + L'.length ∧ w'.nCtor + L.length = w.nCtor + L'.length) := by
  obtain ⟨h1, h2⟩ := once_insert (lt := lt) hc
  refine ⟨(h1 (ready w) _ _ h rfl).1, (h1 (ready w) _ _ h rfl).2, fun he => ?_⟩
  obtain ⟨l, hl⟩ := h2 (ready w) _ _ h rfl he
  have h4 := step_effect hI hv h
  have key : ∀ {o : Nat} {t t' : T K}, Tree w.heap s o t → Tree w'.heap s o t' → t.nodes.length + l.length = t'.nodes.length →
      w'.nAlloc + L.length = w.nAlloc + L'.length ∧ w'.nCtor + L.length = w.nCtor + L'.length := by
    intro o t t' ht ht' e
    rw [(contents_iff ht).1 hL, (contents_iff ht').1 hL', ← e, hl.allocs, hl.ctors trivial]
    exact ⟨by simp only [ready]; omega, by simp only [ready]; omega⟩
  have old : ∀ {o : Nat} {t : T K}, Tree w.heap s o t → w'.heap = w.heap →
      w'.nAlloc + L.length = w.nAlloc + L'.length ∧ w'.nCtor + L.length = w.nCtor + L'.length := by
    intro o t ht hh
    refine key ht (by rw [hh]; exact ht) ?_
    rw [grown_same hl hh]; rfl
  have new : ∀ {o : Nat} {t t' : T K} {A B : List (Ptr × K)} {x : Ptr × K}, Tree w.heap s o t → Tree w'.heap s o t' → t.nodes = A ++ B →
      t'.nodes = A ++ x :: B → Change (ready w) w' s t t' →
      w'.nAlloc + L.length = w.nAlloc + L'.length ∧ w'.nCtor + L.length = w.nCtor + L'.length := by
    intro o t t' A B x ht ht' e1 e2 hch
    refine key ht ht' (grown_change (w := ready w) hl ht ht' hch ?_)
    intro q
    simp only [T.ptrs, e1, e2, List.map_append, List.map_cons, List.mem_append, List.mem_cons]
    grind
  cases h4 with
  | multi h4 =>
    cases h4 with
    | base h4 _ =>
      cases h4 with
      | insertOld ht _ _ _ hh => obtain rfl := hc; exact old ht hh
      | insertFail _ _ _ _ _ e => rw [he] at e; cases e
      | insertNew ht ht' e1 e2 _ hch => obtain rfl := hc; exact new ht ht' e1 e2 hch
      | _ => exact hc.elim
    | _ => exact hc.elim
  | uniqueOld ht _ _ _ hh => obtain rfl := hc.unique; exact old ht hh
  | uniqueFail _ _ _ e => rw [he] at e; cases e
  | uniqueNew ht ht' e1 e2 _ hch => obtain rfl := hc.unique; exact new ht ht' e1 e2 hch
  | _ => exact hc.elim

/-- C112 (trees): `insert` without or with a hint requests at most one node; it requests one and constructs one element exactly
if the object then has one element more. -/
theorem tree_requests_insert (hr : FReach lt w) (hv : FValid lt w c) (hc : InsertsInto s c) (hL : Contents w s L)
    (h : Runs (fexec lt c) (ready w) r w') (hL' : Contents w' s L') :
    w'.nAlloc ≤ w.nAlloc + 1 ∧ w'.nCtor ≤ w.nCtor + 1 ∧
      (w'.err = none → w'.nAlloc + L.length = w.nAlloc + L'.length ∧ w'.nCtor + L.length = w.nCtor + L'.length) :=
  insert_requests hr.inv hv hc hL h hL'

/-- The object of a successful insertion is there afterwards. -/
theorem insert_keeps {P : List (Ptr × K) → Prop} (hI : InvP P w) (hv : FValid lt w c) (hc : InsertsInto s c)
    (h : Runs (fexec lt c) (ready w) r w') (he : w'.err = none) : Alive w s ∧ Alive w' s := by
  have key : ∀ {w : W K} {o : Nat} {t : T K}, Tree w.heap s o t → Alive w s := by
    intro w o t ht
    obtain ⟨i, rfl⟩ := ht.ok.hdr
    exact ⟨i, rfl, ht.ne_none⟩
  cases step_effect hI hv h with
  | multi h4 =>
    cases h4 with
    | base h4 _ =>
      cases h4 with
      | insertOld ht _ _ _ hh => obtain rfl := hc; exact ⟨key ht, key (by rw [hh]; exact ht)⟩
      | insertFail _ _ _ _ _ e => rw [he] at e; cases e
      | insertNew ht ht' => obtain rfl := hc; exact ⟨key ht, key ht'⟩
      | _ => exact hc.elim
    | _ => exact hc.elim
  | uniqueOld ht _ _ _ hh => obtain rfl := hc.unique; exact ⟨key ht, key (by rw [hh]; exact ht)⟩
  | uniqueFail _ _ _ e => rw [he] at e; cases e
  | uniqueNew ht ht' => obtain rfl := hc.unique; exact ⟨key ht, key ht'⟩
  | _ => exact hc.elim

theorem Runs.copy {prop : Bool} {d s : Ptr} (h : Runs (fexec lt (.multi (.base (.copy prop d s)))) w r w') :
    Runs (copyNothrow prop d s) w () w' := by
  obtain ⟨a, w1, h1, h2⟩ := runs_steps h
  cases h2
  obtain ⟨b, w2, h3, h4⟩ := runs_steps h1
  cases h3
  obtain ⟨b, w3, h5, h6⟩ := runs_steps h4
  cases h6
  obtain ⟨b, w4, h7, h8⟩ := runs_steps h5
  cases h8
  exact h7

theorem copy_exact {P : List (Ptr × K) → Prop} {prop : Bool} {d : Ptr} (hI : InvP P w) (hv : FValid lt w (.multi (.base (.copy prop d s))))
    (hne : d ≠ s) (hL : Contents w s L) (h : Runs (fexec lt (.multi (.base (.copy prop d s)))) (ready w) r w') (he : w'.err = none) :
    w'.nAlloc = w.nAlloc + L.length ∧ w'.nCtor = w.nCtor + L.length + 1 := by
  have h4 := step_effect hI hv h
  cases h4 with
  | multi h4 =>
    cases h4 with
    | base h4 _ =>
      cases h4 with
      | copySelf => exact absurd rfl hne
      | copyFail _ _ _ _ _ e => rw [he] at e; cases e
      | @copyOk _ _ _ _ o o' t0 t t2 _ ht0 ht ht2 hlike hch =>
        have hk := Runs.copy h
        unfold copyNothrow at hk
        rw [if_pos hne] at hk
        obtain ⟨_, w1, k1, k2⟩ := runs_steps hk
        obtain ⟨_, w1', k1', ea, ec, e1, hf, hfr⟩ := (wp_clear (Q := fun _ w1 => w1.nAlloc = w.nAlloc ∧ w1.nCtor = w.nCtor ∧ w1.err = none ∧
            (∀ q ∈ t0.ptrs, w1.heap q = none) ∧ (∀ q, q ≠ d → q ∉ t0.ptrs → w1.heap q = w.heap q)) ht0
          (fun H' _ a b => ⟨rfl, rfl, rfl, a, b⟩)).runs
        obtain ⟨-, rfl⟩ := Runs.det k1 k1'
        obtain ⟨_, w2, k3, k4⟩ := runs_steps k2
        obtain ⟨q2, q2'⟩ := Keep.allocOnCopy _ _ _ _ _ _ k3
        obtain ⟨_, _, k5, k6⟩ := runs_steps k4
        cases k5
        rw [if_neg (by rw [q2.err, e1]; simp)] at k6
        obtain ⟨_, w3, k7, k8⟩ := runs_steps k6
        obtain ⟨_, _, k9, k10⟩ := runs_steps k8
        cases k9
        -- the comparator was copied
        obtain ⟨e3, a3, c3, h3⟩ : w3.err = none ∧ w3.nAlloc = w2.nAlloc ∧ w3.nCtor = w2.nCtor + 1 ∧ w3.heap = w2.heap := by
          unfold Runs tryCtor at k7
          split at k7
          · cases k7; exact ⟨q2.err.trans e1, rfl, rfl, rfl⟩
          · cases k7
            cases k10
            cases he
        rw [if_neg (by rw [e3]; simp)] at k10
        have hg : Grows True (do
            if (← rd s).parent ≠ .null then
              let link ← mCopy d (← rd s).parent d
              if (← hasErr) then pure () else do
              setParent d link
              setLeft d (← minLoop (← rd d).parent)
              setRight d (← maxLoop (← rd d).parent)
              let c := (← rd s).count
              setCount d (fun _ => c)
            else pure () : M (W K) Unit) := by
          refine .bindK (.rd _) fun _ => .ite (.bindK (.rd _) fun _ => .check (Grows.mCopy _ _ _) (fun _ => .pure _) fun _ =>
            Keep.grows (by keeps)) (Keep.pure _).grows
        obtain ⟨l, hl⟩ := hg _ _ _ k10 e3 he
        have hheap : ∀ a, w3.heap (.dyn a) ≠ none ↔ w1.heap (.dyn a) ≠ none := by
          intro a
          rw [h3]
          exact ⟨q2.heap a, q2' a⟩
        have hd : ∀ a, Ptr.dyn a ≠ d := by
          rintro a rfl
          obtain ⟨i, hi⟩ := ht0.ok.hdr
          cases hi
        have hcnt := Grown.count (A := []) hl .nil ht2.ok.nodup ht2.ok.dyn (by simp) (by simp)
          (fun q hq => by obtain ⟨n, hn, -⟩ := Rep_alloc ht2.rep q hq; rw [hn]; simp)
          (fun q hq _ => by
            obtain ⟨a, rfl⟩ := ht2.ok.dyn q hq
            refine Classical.byContradiction fun hn => (hheap a).1 hn ?_
            by_cases hq0 : Ptr.dyn a ∈ t0.ptrs
            · exact hf _ hq0
            · rw [hfr _ (hd a) hq0]
              exact ((hch.fresh _ hq).resolve_left hq0).none)
          (fun a ha hn => by
            refine (hheap a).2 ?_
            have hq0 : Ptr.dyn a ∉ t0.ptrs := fun hq0 => hn (hch.gone _ hq0 ha)
            rw [hfr _ (hd a) hq0]
            rwa [hch.frame _ (hd a) hq0 ha] at hn)
        have hlen : t2.nodes.length = t.nodes.length := by
          have := congrArg List.length hlike.keys
          simpa using this
        have : l.length = L.length := by
          rw [(contents_iff (w := w) ht).1 hL, ← hlen]
          simpa [T.ptrs] using hcnt
        rw [hl.allocs, hl.ctors trivial, a3, c3, q2.allocs, q2.ctors, ea, ec, this]
        exact ⟨rfl, by omega⟩

theorem copy_bound {prop : Bool} {d : Ptr} {o o' : Nat} {t0 t : T K} (hne : d ≠ s) (ht0 : Tree w.heap d o t0) (ht : Tree w.heap s o' t)
    (hdis : ∀ q ∈ t0.ptrs, q ∉ t.ptrs) (herr : w.err = none) {u : Unit} (hk : Runs (copyNothrow prop d s) w u w') :
    w'.nAlloc ≤ w.nAlloc + t.nodes.length ∧ w'.nCtor ≤ w.nCtor + t.nodes.length + 1 := by
  unfold copyNothrow at hk
  rw [if_pos hne] at hk
  obtain ⟨_, w1, k1, k2⟩ := runs_steps hk
  obtain ⟨_, w1', k1', ea, ec, e1, hfr, hn1⟩ := (wp_clear (Q := fun _ w1 => w1.nAlloc = w.nAlloc ∧ w1.nCtor = w.nCtor ∧ w1.err = none ∧
      (∀ q, q ≠ d → q ∉ t0.ptrs → w1.heap q = w.heap q) ∧ Tree w1.heap d o .nil) ht0
    (fun H' a _ b => ⟨rfl, rfl, herr, b, a⟩)).runs
  obtain ⟨-, rfl⟩ := Runs.det k1 k1'
  obtain ⟨_, w2, k3, k4⟩ := runs_steps k2
  obtain ⟨q2, q2'⟩ := Keep.allocOnCopy _ _ _ _ _ _ k3
  obtain ⟨f2, o2, hh2⟩ : (∀ q, q ≠ d → w2.heap q = w1.heap q) ∧ ∃ o2, HdrOk w2.heap d o2 := by
    unfold allocOnCopy at k3
    cases prop with
    | false =>
      rw [if_neg (by simp)] at k3
      cases k3
      exact ⟨fun _ _ => rfl, o, _, hn1.cell, rfl⟩
    | true =>
      rw [if_pos rfl] at k3
      obtain ⟨n, w3, k5, k6⟩ := runs_steps k3
      obtain ⟨rfl, -⟩ := runs_rd k5
      obtain ⟨g1, g2, -⟩ := runs_modCell k6
      refine ⟨g1, ?_⟩
      cases hd : w2.heap d with
      | none => exact absurd hd g2
      | some m => exact ⟨m.owner, m, hd, rfl⟩
  obtain ⟨_, _, k5, k6⟩ := runs_steps k4
  cases k5
  rw [if_neg (by rw [q2.err, e1]; simp)] at k6
  obtain ⟨_, w3, k7, k8⟩ := runs_steps k6
  obtain ⟨_, _, k9, k10⟩ := runs_steps k8
  cases k9
  obtain ⟨a3, c3, h3⟩ : w3.nAlloc = w2.nAlloc ∧ w3.nCtor = w2.nCtor + 1 ∧ w3.heap = w2.heap := by
    unfold Runs tryCtor at k7
    split at k7 <;> (cases k7; exact ⟨rfl, rfl, rfl⟩)
  have base : w3.nAlloc = w.nAlloc ∧ w3.nCtor = w.nCtor + 1 := by
    rw [a3, c3, q2.allocs, q2.ctors, ea, ec]; exact ⟨rfl, rfl⟩
  by_cases hE : w3.err = none
  · rw [if_neg (by rw [hE]; simp)] at k10
    have hsn : s ∉ t0.ptrs := by
      intro e; obtain ⟨i, hi⟩ := ht0.ok.dyn _ e; obtain ⟨j, hj⟩ := ht.ok.hdr; rw [hi] at hj; cases hj
    have hsame : ∀ q, q ≠ d → q ∉ t0.ptrs → w3.heap q = w.heap q := fun q hq hq0 => by rw [h3, f2 q hq, hfr q hq hq0]
    have hcell := (hsame s (Ne.symm hne) hsn).trans ht.cell
    obtain ⟨n, w4, k11, k12⟩ := runs_steps k10
    obtain ⟨e4, hn⟩ := runs_rd k11
    rw [e4] at k12
    rw [hcell] at hn
    cases hn
    by_cases hnil : t = .nil
    · subst hnil
      rw [if_neg (by simp [hdCell, T.ptr])] at k12
      cases k12
      rw [base.1, base.2]
      omega
    · have h0 : Ptr.null ∉ t.ptrs := by intro e; obtain ⟨i, hi⟩ := ht.ok.dyn _ e; cases hi
      have htn : t.ptr ≠ .null := by
        cases t with
        | nil => exact absurd rfl hnil
        | node p c a k b => intro e; exact h0 (by rw [ptrs_mk_L, mem_ptrs_mk]; exact .inl e.symm)
      rw [if_pos (by simpa [hdCell] using htn)] at k12
      obtain ⟨n, w5, k13, k14⟩ := runs_steps k12
      obtain ⟨e5, hn⟩ := runs_rd k13
      rw [e5] at k14
      rw [hcell] at hn
      cases hn
      obtain ⟨lk, w6, k15, k16⟩ := runs_steps k14
      have hrep : Rep w3.heap o' s t := Rep_congr (fun q hq => hsame q
        (by rintro rfl; obtain ⟨i, hi⟩ := ht.ok.dyn _ hq; obtain ⟨j, hj⟩ := ht0.ok.hdr; rw [hi] at hj; cases hj)
        (fun h => hdis q h hq)) ht.rep
      obtain ⟨b1, -⟩ := (copy_atMost (o := o2) ht0.ok.hdr t).1 hnil hrep h0 (by rw [h3]; exact hh2) hE k15
      obtain ⟨_, _, k17, k18⟩ := runs_steps k16
      cases k17
      have hq : Still w6 w' := by
        split at k18
        · cases k18; exact .refl _
        · refine Quiet.bind (Quiet.setParent d lk) (fun _ => ?_) _ _ _ k18
          quietly
      have := b1.1; have := b1.2
      rw [hq.allocs, hq.ctors]
      omega
  · rw [if_pos (by cases hh : w3.err with
      | none => exact absurd hh hE
      | some _ => rfl)] at k10
    cases k10
    rw [base.1, base.2]
    omega

/-- See `tree_requests_copy`. -/
theorem copy_requests {P : List (Ptr × K) → Prop} {prop : Bool} {d : Ptr} (hI : InvP P w) (hv : FValid lt w (.multi (.base (.copy prop d s))))
    (hne : d ≠ s) (hL : Contents w s L) (h : Runs (fexec lt (.multi (.base (.copy prop d s)))) (ready w) r w') :
    w'.nAlloc ≤ w.nAlloc + L.length ∧ w'.nCtor ≤ w.nCtor + L.length + 1 ∧
      (w'.err = none → w'.nAlloc = w.nAlloc + L.length ∧ w'.nCtor = w.nCtor + L.length + 1) := by
  obtain ⟨i, o, t0, rfl, -, ht0, -⟩ := hI.tree hv.1
  obtain ⟨j, o', t, rfl, -, ht, -⟩ := hI.tree hv.2
  have hdis : ∀ q ∈ t0.ptrs, q ∉ t.ptrs := hI.disj ht0 ht (by rintro rfl; exact hne rfl)
  have hb := copy_bound (w := ready w) hne ht0 ht hdis rfl (Runs.copy h)
  rw [(contents_iff ht).1 hL]
  exact ⟨hb.1, hb.2, fun he => by rw [← (contents_iff ht).1 hL]; exact copy_exact hI hv hne hL h he⟩

/-- C112 (trees): copying another object requests a node for each of its elements, and constructs these elements and the copy of
the comparator; a copy that fails requests and constructs no more. -/
theorem tree_requests_copy {prop : Bool} {d : Ptr} (hr : FReach lt w) (hv : FValid lt w (.multi (.base (.copy prop d s))))
    (hne : d ≠ s) (hL : Contents w s L) (h : Runs (fexec lt (.multi (.base (.copy prop d s)))) (ready w) r w') :
    w'.nAlloc ≤ w.nAlloc + L.length ∧ w'.nCtor ≤ w.nCtor + L.length + 1 ∧
      (w'.err = none → w'.nAlloc = w.nAlloc + L.length ∧ w'.nCtor = w.nCtor + L.length + 1) :=
  copy_requests hr.inv hv hne hL h

/-! ### Concrete cases -/

/-- Object 0 of `fdemo` has four elements: clearing it, or exchanging it with object 1, requests nothing. -/
example : ∃ w r w', Runs (fexec pairLt (.multi (.base (.clear (.stk 0))))) (ready w) r w' ∧ w'.nAlloc = w.nAlloc ∧ w'.err = none := by
  obtain ⟨w, L, M, hr, hg, h0, h1, hc, -, e, -⟩ := fdemo 7
  obtain ⟨r, w', h2, -, -⟩ := hr.step (c := .multi (.base (.clear (.stk 0)))) h0
  have := tree_requests_nothing (c := .multi (.base (.clear (.stk 0)))) trivial h2
  exact ⟨w, r, w', h2, this.1, this.2.2⟩

/-- Emplacing (2,0), which is there, into object 0 of `fdemo` still requests a node and constructs an element. -/
example : ∃ w r w', Runs (fexec pairLt (.unique .emplace (.stk 0) (2, 0))) (ready w) r w' ∧ w'.nAlloc = w.nAlloc + 1 ∧
    w'.nCtor = w.nCtor + 1 := by
  obtain ⟨w, L, M, hr, hg, h0, h1, hc, -, e, -⟩ := fdemo 7
  obtain ⟨r, w', h2, h3⟩ := tree_no_error (c := .unique .emplace (.stk 0) (2, 0)) hr ⟨h0, trivial⟩ hg
  have := (tree_requests_one (c := .unique .emplace (.stk 0) (2, 0)) trivial h2).2.2 h3
  exact ⟨w, r, w', h2, this⟩

/-- Inserting (2,0), or any other key, into object 0 of `fdemo`: the requests are the new elements. -/
example (k : Nat × Nat) : ∃ w r w' L L', Runs (fexec pairLt (.multi (.base (.insert (.stk 0) k)))) (ready w) r w' ∧ Contents w (.stk 0) L ∧
    Contents w' (.stk 0) L' ∧ L.length = 4 ∧ w'.nAlloc + 4 = w.nAlloc + L'.length := by
  obtain ⟨w, L, M, hr, hg, h0, h1, hc, -, e, -⟩ := fdemo 7
  have hv : FValid pairLt w (.multi (.base (.insert (.stk 0) k))) := h0
  obtain ⟨r, w', h2, h3⟩ := tree_no_error hr hv hg
  obtain ⟨r', w'', h4, h5, h6⟩ := hr.step hv
  obtain ⟨rfl, rfl⟩ := Runs.det h2 h4
  have hl : L.length = 4 := by simpa using congrArg List.length e
  obtain ⟨L', hc'⟩ : ∃ L', Contents w' (.stk 0) L' := by
    cases h6 with
    | multi h6 =>
      cases h6 with
      | base h6 _ =>
        cases h6 with
        | insertOld ht _ _ _ hh => exact ⟨_, (contents_iff (by rw [hh]; exact ht)).2 rfl⟩
        | insertFail _ _ _ _ _ ee => rw [h3] at ee; cases ee
        | insertNew ht ht' => exact ⟨_, (contents_iff ht').2 rfl⟩
  have := (tree_requests_insert hr hv rfl hc h2 hc').2.2 h3
  exact ⟨w, r, w', L, L', h2, hc, hc', hl, by rw [← hl]; exact this.1⟩

/-- Copying object 0 of `fdemo` into object 1 requests four nodes and constructs four elements and the comparator. -/
example : ∃ w r w', Runs (fexec pairLt (.multi (.base (.copy false (.stk 1) (.stk 0))))) (ready w) r w' ∧ w'.nAlloc = w.nAlloc + 4 ∧
    w'.nCtor = w.nCtor + 5 := by
  obtain ⟨w, L, M, hr, hg, h0, h1, hc, -, e, -⟩ := fdemo 7
  have hv : FValid pairLt w (.multi (.base (.copy false (.stk 1) (.stk 0)))) := ⟨h1, h0⟩
  obtain ⟨r, w', h2, h3⟩ := tree_no_error hr hv hg
  have hl : L.length = 4 := by simpa using congrArg List.length e
  have := (tree_requests_copy hr hv (by decide) hc h2).2.2 h3
  rw [hl] at this
  exact ⟨w, r, w', h2, this⟩

end Full
end Nestl
