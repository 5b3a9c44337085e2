import Verif.Model.Memory
import Verif.Props.Serialize

/-!
# Memory (C50, C51, C52)
-/

set_option linter.unusedSectionVars false
set_option autoImplicit false
set_option maxRecDepth 1000000

namespace Surf.Props
open Surf Trie

/-! ## Specification -/

namespace Mem

/-- The arrays of a filter with content `f`, in bytes. -/
def arrays (f : Filter) : List Nat :=
  [f.dense.labelBitmaps.bits.length * 8, f.dense.labelBitmaps.rankLut.length * 4, f.dense.childBitmaps.bits.length * 8,
   f.dense.childBitmaps.rankLut.length * 4, f.dense.prefixBits.bits.length * 8, f.dense.prefixBits.rankLut.length * 4] ++
  (if f.dense.suffixes.type = .kNone then [] else [f.dense.suffixes.bits.length * 8]) ++
  [f.sparse.labels.labels.length, f.sparse.levelCuts.length * 4, f.sparse.childBits.bits.length * 8, f.sparse.childBits.rankLut.length * 4,
   f.sparse.loudsBits.bits.length * 8, f.sparse.loudsBits.selectLut.length * 4] ++
  (if f.sparse.suffixes.type = .kNone then [] else [f.sparse.suffixes.bits.length * 8])

/-- The objects of a filter, and the array of level boundaries of the dense levels. -/
def rest (z : Sizeof) (f : Filter) : List Nat :=
  [z.dense, f.dense.levelCuts.length * 4, z.rank, z.rank, z.rank, z.suffix, z.sparse, z.labels, z.rank, z.select, z.suffix]

/-- What a program should know about its filters: the contents of those it constructed and whether they were destroyed, and the one that each
`SuRF` object refers to. -/
structure St where
  built : List (Filter × Bool)
  objs : List Nat

/-- One operation; `none` when a filter is destroyed for the second time. -/
def step (s : St) : MemOp → Option St
  | .create f => some ⟨s.built ++ [(f, false)], s.objs ++ [s.built.length]⟩
  | .load f => some ⟨s.built ++ [(f, false)], s.objs ++ [s.built.length]⟩
  | .copy i =>
    match s.objs[i]? with
    | some k => some ⟨s.built, s.objs ++ [k]⟩
    | none => some s
  | .destroy i =>
    match s.objs[i]? with
    | some k =>
      match s.built[k]? with
      | some (f, false) => some ⟨s.built.set k (f, true), s.objs⟩
      | _ => none
    | none => some s

/-- A program. -/
def run (s : St) : List MemOp → Option St
  | [] => some s
  | op :: ops => (step s op).bind fun s => run s ops

end Mem

namespace Mem

/-- All bytes a filter with content `f` occupies. -/
def bytes (z : Sizeof) (f : Filter) : Nat := z.surf + (rest z f).sum + (arrays f).sum

/-- Classes of less than a megabyte. -/
def Small (z : Sizeof) : Prop :=
  z.rank ≤ 2 ^ 20 ∧ z.select ≤ 2 ^ 20 ∧ z.labels ≤ 2 ^ 20 ∧ z.suffix ≤ 2 ^ 20

end Mem

/-! ## Proof -/

/-- Blocks at consecutive addresses. -/
def ext (n : Nat) : List (Bool × Nat) → List Block
  | [] => []
  | (a, b) :: l => ⟨n, a, b⟩ :: ext (n + 1) l

theorem ext_append (l l' : List (Bool × Nat)) : ∀ n, ext n (l ++ l') = ext n l ++ ext (n + l.length) l' := by
  induction l with
  | nil => intro n; rfl
  | cons a l ih =>
    intro n
    obtain ⟨a, b⟩ := a
    simp only [List.cons_append, ext, List.length_cons, ih]
    rw [show n + 1 + l.length = n + (l.length + 1) by omega]

theorem ext_addr {l : List (Bool × Nat)} : ∀ {n : Nat} {b : Block}, b ∈ ext n l → n ≤ b.addr ∧ b.addr < n + l.length := by
  induction l with
  | nil => intro n b h; cases h
  | cons a l ih =>
    intro n b h
    rcases List.mem_cons.1 h with rfl | h
    · simp
    · have := ih h
      simp only [List.length_cons]
      omega

/-- Blocks of the suffixes. -/
def sufBlocks (z : Sizeof) (b : BitvectorSuffix) : List (Bool × Nat) :=
  (false, z.suffix) :: if b.type = .kNone then [] else [(true, b.bits.length * 8)]

/-- Blocks of a filter in the order of allocation. -/
def denseBlocks (z : Sizeof) (d : LoudsDense) : List (Bool × Nat) :=
  [(false, z.dense), (true, d.levelCuts.length * 4),
   (false, z.rank), (true, d.labelBitmaps.bits.length * 8), (true, d.labelBitmaps.rankLut.length * 4),
   (false, z.rank), (true, d.childBitmaps.bits.length * 8), (true, d.childBitmaps.rankLut.length * 4),
   (false, z.rank), (true, d.prefixBits.bits.length * 8), (true, d.prefixBits.rankLut.length * 4)] ++ sufBlocks z d.suffixes

def sparseBlocks (z : Sizeof) (t : LoudsSparse) : List (Bool × Nat) :=
  [(false, z.sparse), (false, z.labels), (true, t.labels.labels.length), (true, t.levelCuts.length * 4),
   (false, z.rank), (true, t.childBits.bits.length * 8), (true, t.childBits.rankLut.length * 4),
   (false, z.select), (true, t.loudsBits.bits.length * 8), (true, t.loudsBits.selectLut.length * 4)] ++ sufBlocks z t.suffixes

def allBlocks (z : Sizeof) (f : Filter) : List (Bool × Nat) := denseBlocks z f.dense ++ sparseBlocks z f.sparse

/-- The pointers, when the blocks start at `n`. -/
def sufPtr (b : BitvectorSuffix) (n : Nat) : ArrPtr := if b.type = .kNone then ⟨n, 0, false⟩ else ⟨n, n + 1, true⟩

def densePtr (d : LoudsDense) (n : Nat) : DensePtr :=
  ⟨n, n + 1, ⟨n + 2, n + 3, n + 4⟩, ⟨n + 5, n + 6, n + 7⟩, ⟨n + 8, n + 9, n + 10⟩, sufPtr d.suffixes (n + 11)⟩

def sparsePtr (t : LoudsSparse) (n : Nat) : SparsePtr :=
  ⟨n, n + 3, ⟨n + 1, n + 2, true⟩, ⟨n + 4, n + 5, n + 6⟩, ⟨n + 7, n + 8, n + 9⟩, sufPtr t.suffixes (n + 10)⟩

def ptrs (z : Sizeof) (f : Filter) (n : Nat) : SurfPtr := ⟨densePtr f.dense n, sparsePtr f.sparse (n + (denseBlocks z f.dense).length)⟩

/-- Allocations only: the blocks are appended. -/
def Allocs {α : Type} (m : HM α) (l : List (Bool × Nat)) (r : Nat → α) : Prop :=
  ∀ h : Heap, m h = .ok (r h.next, ⟨h.next + l.length, h.live ++ ext h.next l⟩)

theorem Allocs.one (a : Bool) (b : Nat) : Allocs (alloc a b) [(a, b)] fun n => n := fun _ => rfl

theorem Allocs.step {α β : Type} {m : HM α} {l : List (Bool × Nat)} {r : Nat → α} (h1 : Allocs m l r) (k : α → HM β) (h : Heap) :
    (m >>= k) h = k (r h.next) ⟨h.next + l.length, h.live ++ ext h.next l⟩ := by
  change (m h >>= fun x => k x.1 x.2) = _
  rw [h1 h]
  rfl

theorem newRank_allocs (z : Sizeof) (b : BitvectorRank) :
    Allocs (newRank z b) [(false, z.rank), (true, b.bits.length * 8), (true, b.rankLut.length * 4)] fun n => ⟨n, n + 1, n + 2⟩ := by
  intro h
  unfold newRank
  rw [(Allocs.one _ _).step, (Allocs.one _ _).step, (Allocs.one _ _).step]
  change Except.ok _ = _
  simp [ext]

theorem newSelect_allocs (z : Sizeof) (b : BitvectorSelect) :
    Allocs (newSelect z b) [(false, z.select), (true, b.bits.length * 8), (true, b.selectLut.length * 4)] fun n => ⟨n, n + 1, n + 2⟩ := by
  intro h
  unfold newSelect
  rw [(Allocs.one _ _).step, (Allocs.one _ _).step, (Allocs.one _ _).step]
  change Except.ok _ = _
  simp [ext]

theorem newLabels_allocs (z : Sizeof) (l : LabelVector) :
    Allocs (newLabels z l) [(false, z.labels), (true, l.labels.length)] fun n => ⟨n, n + 1, true⟩ := by
  intro h
  unfold newLabels
  rw [(Allocs.one _ _).step, (Allocs.one _ _).step]
  change Except.ok _ = _
  simp [ext]

theorem newSuffix_allocs (z : Sizeof) (b : BitvectorSuffix) : Allocs (newSuffix z b) (sufBlocks z b) (sufPtr b) := by
  intro h
  unfold newSuffix sufBlocks sufPtr
  rw [(Allocs.one _ _).step]
  by_cases hb : b.type = .kNone
  · simp only [hb, if_true]
    change Except.ok _ = _
    simp [ext]
  · simp only [hb, if_false]
    rw [(Allocs.one _ _).step]
    change Except.ok _ = _
    simp [ext]

theorem newDense_allocs (z : Sizeof) (d : LoudsDense) : Allocs (newDense z d) (denseBlocks z d) (densePtr d) := by
  intro h
  unfold newDense
  rw [(Allocs.one _ _).step, (Allocs.one _ _).step, (newRank_allocs z _).step, (newRank_allocs z _).step, (newRank_allocs z _).step,
    (newSuffix_allocs z _).step]
  change Except.ok _ = _
  simp [denseBlocks, ext, densePtr, Nat.add_assoc]
  try omega

theorem newSparse_allocs (z : Sizeof) (t : LoudsSparse) : Allocs (newSparse z t) (sparseBlocks z t) (sparsePtr t) := by
  intro h
  unfold newSparse
  rw [(Allocs.one _ _).step, (newLabels_allocs z _).step, (Allocs.one _ _).step, (newRank_allocs z _).step, (newSelect_allocs z _).step,
    (newSuffix_allocs z _).step]
  change Except.ok _ = _
  simp [sparseBlocks, ext, sparsePtr, Nat.add_assoc]
  try omega

theorem filter_addr {l : List Block} {p : Nat} (h : ∀ b ∈ l, b.addr ≠ p) : l.filter (fun b => b.addr != p) = l := by
  rw [List.filter_eq_self]
  intro b hb
  simpa using h b hb

theorem free_ok {a : Bool} {p : Nat} {h : Heap} (hp : p ≠ 0) (hm : ∃ b ∈ h.live, b.addr = p ∧ b.array = a) :
    free a p h = .ok ((), ⟨h.next, h.live.filter fun b => b.addr != p⟩) := by
  unfold free
  rw [if_neg hp, if_pos]
  obtain ⟨b, hb, h1, h2⟩ := hm
  rw [List.any_eq_true]
  exact ⟨b, hb, by simp [h1, h2]⟩

theorem free_bad {a : Bool} {p : Nat} {h : Heap} (hp : p ≠ 0) (hm : ∀ b ∈ h.live, b.addr ≠ p) : free a p h = .error .badFree := by
  unfold free
  rw [if_neg hp, if_neg]
  rw [List.any_eq_true]
  rintro ⟨b, hb, h1⟩
  simp at h1
  exact hm b hb h1.1

/-- A heap in which all addresses are below the next one. -/
def HeapOk (h : Heap) : Prop := 1 ≤ h.next ∧ ∀ b ∈ h.live, b.addr < h.next

theorem create_heap (z : Sizeof) (f : Filter) {h : Heap} (ok : HeapOk h) :
    heapCreate z f h = .ok (ptrs z f (h.next + 1), ⟨h.next + 1 + (allBlocks z f).length, h.live ++ ext (h.next + 1) (allBlocks z f)⟩) := by
  unfold heapCreate
  rw [(Allocs.one _ _).step, (newDense_allocs z _).step, (newSparse_allocs z _).step]
  dsimp only
  change (free false h.next _ >>= fun x => Except.ok (_, x.2)) = _
  rw [free_ok (p := h.next) (by have := ok.1; omega) ⟨⟨h.next, false, z.builder⟩, by simp [ext], rfl, rfl⟩]
  change Except.ok _ = _
  have e1 : h.live.filter (fun b => b.addr != h.next) = h.live := filter_addr fun b hb => by have := ok.2 b hb; omega
  have e2 : ∀ n l, h.next < n → (ext n l).filter (fun b => b.addr != h.next) = ext n l := fun n l hn =>
    filter_addr fun b hb => by have := ext_addr hb; omega
  simp only [List.filter_append, e1, ext, List.length_cons, List.length_nil, List.filter_cons, List.filter_nil]
  rw [e2 (h.next + (0 + 1)) _ (by omega), e2 (h.next + (0 + 1) + _) _ (by omega)]
  simp [allBlocks, ext_append, ptrs, Nat.add_assoc]

theorem load_heap (z : Sizeof) (f : Filter) {h : Heap} (ok : HeapOk h) :
    (heapLoad z f >>= fun x => do free false x.1; return x.2 : HM SurfPtr) h =
      .ok (ptrs z f (h.next + 1), ⟨h.next + 1 + (allBlocks z f).length, h.live ++ ext (h.next + 1) (allBlocks z f)⟩) := by
  unfold heapLoad
  simp only [bind_assoc]
  rw [(Allocs.one _ _).step, (newDense_allocs z _).step, (newSparse_allocs z _).step]
  simp only [pure_bind]
  change (free false h.next _ >>= fun x => Except.ok (_, x.2)) = _
  rw [free_ok (p := h.next) (by have := ok.1; omega) ⟨⟨h.next, false, z.surf⟩, by simp [ext], rfl, rfl⟩]
  change Except.ok _ = _
  have e1 : h.live.filter (fun b => b.addr != h.next) = h.live := filter_addr fun b hb => by have := ok.2 b hb; omega
  have e2 : ∀ n l, h.next < n → (ext n l).filter (fun b => b.addr != h.next) = ext n l := fun n l hn =>
    filter_addr fun b hb => by have := ext_addr hb; omega
  simp only [List.filter_append, e1, ext, List.length_cons, List.length_nil, List.filter_cons, List.filter_nil]
  rw [e2 (h.next + (0 + 1)) _ (by omega), e2 (h.next + (0 + 1) + _) _ (by omega)]
  simp [allBlocks, ext_append, ptrs, Nat.add_assoc]

/-! ### `destroy` -/

/-- Releases arrays one after the other. -/
def freeAll : List Nat → HM Unit
  | [] => pure ()
  | p :: ps => do
    free true p
    freeAll ps

theorem freeAll_append (a b : List Nat) : freeAll (a ++ b) = (do freeAll a; freeAll b) := by
  induction a with
  | nil => simp [freeAll]
  | cons p a ih => simp only [List.cons_append, freeAll, ih, bind_assoc]

theorem freeAll_ok (ps : List Nat) : ∀ (h : Heap), ps.Nodup → (∀ p ∈ ps, p ≠ 0 ∧ ∃ b ∈ h.live, b.addr = p ∧ b.array = true) →
    freeAll ps h = .ok ((), ⟨h.next, h.live.filter fun b => decide (b.addr ∉ ps)⟩) := by
  induction ps with
  | nil => intro h _ _; change Except.ok _ = _; simp
  | cons p ps ih =>
    intro h hn hm
    obtain ⟨h1, h2⟩ := List.nodup_cons.1 hn
    change (free true p h >>= fun x => freeAll ps x.2) = _
    rw [free_ok (hm p (by simp)).1 (hm p (by simp)).2]
    change freeAll ps _ = _
    rw [ih _ h2]
    · simp only [List.filter_filter]
      congr 4
      funext b
      simp only [List.mem_cons, not_or, bne_iff_ne, Bool.decide_and]
      by_cases hb : b.addr = p <;> simp [hb]
    · intro q hq
      obtain ⟨h3, b, h4, h5, h6⟩ := hm q (by simp [hq])
      refine ⟨h3, b, ?_, h5, h6⟩
      simp only [List.mem_filter, bne_iff_ne]
      refine ⟨h4, ?_⟩
      rw [h5]
      rintro rfl
      exact h1 hq

/-- The arrays released by `destroy`. -/
def sufDels (b : BitvectorSuffix) (n : Nat) : List Nat := if b.type = .kNone then [] else [n + 1]

def dels (z : Sizeof) (f : Filter) (n : Nat) : List Nat :=
  let m := n + (denseBlocks z f.dense).length
  [n + 3, n + 4, n + 6, n + 7, n + 9, n + 10] ++ sufDels f.dense.suffixes (n + 11) ++
  [m + 3, m + 2, m + 5, m + 6, m + 8, m + 9] ++ sufDels f.sparse.suffixes (m + 10)

theorem suf_destroy (b : BitvectorSuffix) (n : Nat) : (sufPtr b n).destroy = freeAll (sufDels b n) := by
  unfold sufPtr sufDels ArrPtr.destroy
  by_cases h : b.type = .kNone
  · simp [h, freeAll]
  · simp [h, freeAll]

theorem destroy_eq (z : Sizeof) (f : Filter) (n : Nat) : (ptrs z f n).destroy = freeAll (dels z f n) := by
  unfold SurfPtr.destroy ptrs DensePtr.destroy SparsePtr.destroy densePtr sparsePtr dels
  dsimp only
  rw [suf_destroy, suf_destroy, freeAll_append, freeAll_append, freeAll_append]
  simp [freeAll, VecPtr.destroy, ArrPtr.destroy, bind_assoc]

/-! ### One filter -/

theorem one_array (z : Sizeof) (f : Filter) (n : Nat) : ∀ p ∈ dels z f n, ∃ b ∈ ext n (allBlocks z f), b.addr = p ∧ b.array = true := by
  by_cases h1 : f.dense.suffixes.type = .kNone <;> by_cases h2 : f.sparse.suffixes.type = .kNone <;>
    simp [dels, sufDels, allBlocks, denseBlocks, sparseBlocks, sufBlocks, ext, h1, h2, Nat.add_assoc]

theorem one_nodup (z : Sizeof) (f : Filter) (n : Nat) : (dels z f n).Nodup := by
  by_cases h1 : f.dense.suffixes.type = .kNone <;> by_cases h2 : f.sparse.suffixes.type = .kNone <;>
    simp [dels, sufDels, denseBlocks, sufBlocks, h1, h2, Nat.add_assoc]

theorem one_range {z : Sizeof} {f : Filter} {n : Nat} {p : Nat} (h : p ∈ dels z f n) : n ≤ p ∧ p < n + (allBlocks z f).length := by
  obtain ⟨b, hb, rfl, -⟩ := one_array z f n p h
  exact ext_addr hb

theorem one_rest (z : Sizeof) (f : Filter) (n : Nat) :
    ((ext n (allBlocks z f)).filter fun b => decide (b.addr ∉ dels z f n)).map Block.bytes = Mem.rest z f := by
  by_cases h1 : f.dense.suffixes.type = .kNone <;> by_cases h2 : f.sparse.suffixes.type = .kNone <;>
    simp [dels, sufDels, allBlocks, denseBlocks, sparseBlocks, sufBlocks, ext, h1, h2, Nat.add_assoc, Mem.rest]

theorem one_arrays (z : Sizeof) (f : Filter) (n : Nat) :
    ((ext n (allBlocks z f)).filter fun b => !decide (b.addr ∉ dels z f n)).map Block.bytes = Mem.arrays f := by
  by_cases h1 : f.dense.suffixes.type = .kNone <;> by_cases h2 : f.sparse.suffixes.type = .kNone <;>
    simp [dels, sufDels, allBlocks, denseBlocks, sparseBlocks, sufBlocks, ext, h1, h2, Nat.add_assoc, Mem.arrays]

theorem one_all (z : Sizeof) (f : Filter) (n : Nat) :
    ((ext n (allBlocks z f)).map Block.bytes).Perm (Mem.rest z f ++ Mem.arrays f) := by
  rw [← one_rest z f n, ← one_arrays z f n, ← List.map_append]
  exact (List.filter_append_perm _ _).symm.map _

/-! ### Programs -/

/-- A filter of the program: its content, the address of its first block and whether it was destroyed. -/
structure Cell where
  f : Filter
  base : Nat
  dead : Bool

/-- Its blocks in use. -/
def Cell.live (z : Sizeof) (c : Cell) : List Block :=
  if c.dead then (ext c.base (allBlocks z c.f)).filter fun b => decide (b.addr ∉ dels z c.f c.base) else ext c.base (allBlocks z c.f)

def Cell.stop (z : Sizeof) (c : Cell) : Nat := c.base + (allBlocks z c.f).length

theorem Cell.live_addr {z : Sizeof} {c : Cell} {b : Block} (h : b ∈ c.live z) : c.base ≤ b.addr ∧ b.addr < c.stop z := by
  unfold Cell.live at h
  split at h
  · exact ext_addr (List.mem_filter.1 h).1
  · exact ext_addr h

structure Inv (z : Sizeof) (s : Mem.St) (cells : List Cell) (ps : List SurfPtr) (h : Heap) : Prop where
  built : s.built = cells.map fun c => (c.f, c.dead)
  objs : List.Forall₂ (fun p k => ∃ c, cells[k]? = some c ∧ p = ptrs z c.f c.base) ps s.objs
  order : cells.Pairwise fun c d => c.stop z ≤ d.base
  range : ∀ c ∈ cells, 1 ≤ c.base ∧ c.stop z ≤ h.next
  live : h.live = cells.flatMap (Cell.live z)
  next : 1 ≤ h.next

theorem Inv.heapOk {z : Sizeof} {s : Mem.St} {cells : List Cell} {ps : List SurfPtr} {h : Heap} (i : Inv z s cells ps h) : HeapOk h := by
  refine ⟨i.next, fun b hb => ?_⟩
  rw [i.live, List.mem_flatMap] at hb
  obtain ⟨c, hc, hb⟩ := hb
  have := (Cell.live_addr hb).2
  have := (i.range c hc).2
  omega

theorem split_at {α : Type} : ∀ {l : List α} {k : Nat} {c : α}, l[k]? = some c → ∃ a b, l = a ++ c :: b ∧ a.length = k
  | [], k, c, h => by simp at h
  | x :: l, 0, c, h => ⟨[], l, by simpa using h, rfl⟩
  | x :: l, k + 1, c, h => by
    obtain ⟨a, b, h1, h2⟩ := split_at (l := l) (k := k) (c := c) (by simpa using h)
    exact ⟨x :: a, b, by simp [h1], by simp [h2]⟩

theorem Inv.push {z : Sizeof} {s : Mem.St} {cells : List Cell} {ps : List SurfPtr} {h : Heap} (i : Inv z s cells ps h) (f : Filter) :
    Inv z ⟨s.built ++ [(f, false)], s.objs ++ [s.built.length]⟩ (cells ++ [⟨f, h.next + 1, false⟩]) (ps ++ [ptrs z f (h.next + 1)])
      ⟨h.next + 1 + (allBlocks z f).length, h.live ++ ext (h.next + 1) (allBlocks z f)⟩ := by
  refine ⟨by simp [i.built], ?_, ?_, ?_, by simp [i.live, Cell.live], by dsimp only; omega⟩
  · refine List.rel_append ?_ (.cons ⟨⟨f, h.next + 1, false⟩, ?_, rfl⟩ .nil)
    · refine i.objs.imp fun p k ⟨c, h1, h2⟩ => ⟨c, ?_, h2⟩
      rw [List.getElem?_append_left (List.getElem?_eq_some_iff.1 h1).1, h1]
    · simp [i.built]
  · rw [List.pairwise_append]
    refine ⟨i.order, List.pairwise_singleton _ _, fun c hc d hd => ?_⟩
    obtain rfl := List.mem_singleton.1 hd
    have := (i.range c hc).2
    change _ ≤ h.next + 1
    omega
  · intro c hc
    rcases List.mem_append.1 hc with hc | hc
    · obtain ⟨h1, h2⟩ := i.range c hc
      exact ⟨h1, by dsimp only; omega⟩
    · obtain rfl := List.mem_singleton.1 hc
      exact ⟨by dsimp only; omega, Nat.le_refl _⟩

theorem Inv.kill {z : Sizeof} {s : Mem.St} {cells : List Cell} {ps : List SurfPtr} {h : Heap} (i : Inv z s cells ps h) {k : Nat} {c : Cell}
    (hk : cells[k]? = some c) (hd : c.dead = false) : ∃ h', (ptrs z c.f c.base).destroy h = .ok ((), h') ∧
      Inv z ⟨s.built.set k (c.f, true), s.objs⟩ (cells.set k { c with dead := true }) ps h' := by
  obtain ⟨a, b, rfl, rfl⟩ := split_at hk
  have hc : c ∈ a ++ c :: b := by simp
  have e : c.live z = ext c.base (allBlocks z c.f) := by simp [Cell.live, hd]
  have hlive : h.live = a.flatMap (Cell.live z) ++ (c.live z ++ b.flatMap (Cell.live z)) := by rw [i.live]; simp
  refine ⟨⟨h.next, h.live.filter fun b => decide (b.addr ∉ dels z c.f c.base)⟩, ?_, ?_⟩
  · rw [destroy_eq]
    refine freeAll_ok _ _ (one_nodup z c.f c.base) fun p hp => ⟨?_, ?_⟩
    · have := (one_range hp).1
      have := (i.range c hc).1
      omega
    · obtain ⟨x, hx, h1⟩ := one_array z c.f c.base p hp
      refine ⟨x, ?_, h1⟩
      rw [hlive, e]
      simp [hx]
  · obtain ⟨o1, o2, o3⟩ := List.pairwise_append.1 i.order
    obtain ⟨o4, o5⟩ := List.pairwise_cons.1 o2
    have hset : (a ++ c :: b).set a.length { c with dead := true } = a ++ { c with dead := true } :: b := by simp
    refine ⟨?_, ?_, ?_, ?_, ?_, i.next⟩
    · rw [i.built, hset]; simp
    · rw [hset]
      refine i.objs.imp fun p k ⟨d, h1, h2⟩ => ?_
      rcases Nat.lt_trichotomy k a.length with hka | hka | hka
      · exact ⟨d, by rw [List.getElem?_append_left hka] at h1 ⊢; exact h1, h2⟩
      · subst hka
        simp only [List.getElem?_append_right (Nat.le_refl _), Nat.sub_self, List.getElem?_cons_zero, Option.some.injEq] at h1
        subst h1
        exact ⟨{ c with dead := true }, by simp, h2⟩
      · refine ⟨d, ?_, h2⟩
        rw [List.getElem?_append_right (by omega)] at h1 ⊢
        obtain ⟨j, hj⟩ : ∃ j, k - a.length = j + 1 := ⟨k - a.length - 1, by omega⟩
        rw [hj] at h1 ⊢
        simpa using h1
    · rw [hset, List.pairwise_append, List.pairwise_cons]
      refine ⟨o1, ⟨o4, o5⟩, fun x hx y hy => ?_⟩
      rcases List.mem_cons.1 hy with rfl | hy
      · exact o3 x hx c (by simp)
      · exact o3 x hx y (by simp [hy])
    · rw [hset]
      intro x hx
      rcases List.mem_append.1 hx with hx | hx
      · exact i.range x (by simp [hx])
      · rcases List.mem_cons.1 hx with rfl | hx
        · exact i.range c hc
        · exact i.range x (by simp [hx])
    · rw [hset]
      dsimp only
      rw [hlive, List.filter_append, List.filter_append, List.flatMap_append, List.flatMap_cons]
      congr 1
      · rw [List.filter_eq_self]
        intro x hx
        obtain ⟨d, hd, hx⟩ := List.mem_flatMap.1 hx
        have h1 := (Cell.live_addr hx).2
        have h2 := o3 d hd c (by simp)
        simp only [decide_eq_true_eq]
        intro h3
        have := (one_range h3).1
        omega
      · congr 1
        · rw [e]; simp [Cell.live]
        · rw [List.filter_eq_self]
          intro x hx
          obtain ⟨d, hd, hx⟩ := List.mem_flatMap.1 hx
          have h1 := (Cell.live_addr hx).1
          have h2 := o4 d hd
          simp only [decide_eq_true_eq]
          intro h3
          have := (one_range h3).2
          unfold Cell.stop at h2
          omega

theorem Inv.dead {z : Sizeof} {s : Mem.St} {cells : List Cell} {ps : List SurfPtr} {h : Heap} (i : Inv z s cells ps h) {k : Nat} {c : Cell}
    (hk : cells[k]? = some c) (hd : c.dead = true) : (ptrs z c.f c.base).destroy h = .error .badFree := by
  obtain ⟨a, b, rfl, rfl⟩ := split_at hk
  have hc : c ∈ a ++ c :: b := by simp
  have h3 : c.base + 3 ∈ dels z c.f c.base := by simp [dels]
  obtain ⟨o1, o2, o3⟩ := List.pairwise_append.1 i.order
  obtain ⟨o4, o5⟩ := List.pairwise_cons.1 o2
  obtain ⟨r1, r2⟩ := one_range h3
  have hb : ∀ x ∈ h.live, x.addr ≠ c.base + 3 := by
    intro x hx hxe
    rw [i.live, List.mem_flatMap] at hx
    obtain ⟨d, hd', hx⟩ := hx
    have h1 := Cell.live_addr hx
    rcases List.mem_append.1 hd' with hm | hm
    · have := o3 d hm c (by simp)
      omega
    · rcases List.mem_cons.1 hm with rfl | hm
      · simp only [Cell.live, hd, if_true, List.mem_filter, decide_eq_true_eq] at hx
        exact hx.2 (hxe ▸ h3)
      · have := o4 d hm
        unfold Cell.stop at this h1
        omega
  rw [destroy_eq]
  unfold dels
  simp only [List.cons_append, freeAll]
  change (free true (c.base + 3) h >>= _) = _
  rw [free_bad (by omega) hb]
  rfl

theorem step_inv {z : Sizeof} {s : Mem.St} {cells : List Cell} {ps : List SurfPtr} {h : Heap} (i : Inv z s cells ps h) (op : MemOp) :
    (Mem.step s op = none ∧ memStep z ps op h = .error .badFree) ∨
    ∃ s' cells' ps' h', Mem.step s op = some s' ∧ memStep z ps op h = .ok (ps', h') ∧ Inv z s' cells' ps' h' := by
  cases op with
  | create f =>
    refine .inr ⟨_, _, _, _, rfl, ?_, i.push f⟩
    change (heapCreate z f h >>= fun x => Except.ok (ps ++ [x.1], x.2)) = _
    rw [create_heap z f i.heapOk]
    rfl
  | load f =>
    refine .inr ⟨_, _, _, _, rfl, ?_, i.push f⟩
    have := load_heap z f i.heapOk
    change ((heapLoad z f >>= fun x => do free false x.1; return ps ++ [x.2] : HM (List SurfPtr)) h) = _
    have e : (heapLoad z f >>= fun x => do free false x.1; return ps ++ [x.2] : HM (List SurfPtr)) =
        ((heapLoad z f >>= fun x => do free false x.1; return x.2 : HM SurfPtr) >>= fun p => pure (ps ++ [p])) := by
      simp only [bind_assoc, pure_bind]
    rw [e]
    change ((heapLoad z f >>= fun x => do free false x.1; return x.2 : HM SurfPtr) h >>= fun x => Except.ok (ps ++ [x.1], x.2)) = _
    rw [this]
    rfl
  | copy j =>
    refine .inr ?_
    have hl := i.objs.length_eq
    cases hp : ps[j]? with
    | none =>
      have : s.objs[j]? = none := by rw [List.getElem?_eq_none_iff] at hp ⊢; omega
      refine ⟨s, cells, ps, h, by simp [Mem.step, this], ?_, i⟩
      unfold memStep
      simp only [hp]
      rfl
    | some p =>
      obtain ⟨hj, rfl⟩ := List.getElem?_eq_some_iff.1 hp
      have hs : s.objs[j]? = some (s.objs[j]'(hl ▸ hj)) := List.getElem?_eq_getElem _
      refine ⟨⟨s.built, s.objs ++ [s.objs[j]'(hl ▸ hj)]⟩, cells, ps ++ [ps[j]], h, by simp [Mem.step, hs], ?_, ?_⟩
      · unfold memStep
        simp only [hp]
        rfl
      · exact ⟨i.built, List.rel_append i.objs (.cons (i.objs.get hj (hl ▸ hj)) .nil), i.order, i.range, i.live, i.next⟩
  | destroy j =>
    have hl := i.objs.length_eq
    cases hp : ps[j]? with
    | none =>
      have : s.objs[j]? = none := by rw [List.getElem?_eq_none_iff] at hp ⊢; omega
      refine .inr ⟨s, cells, ps, h, by simp [Mem.step, this], ?_, i⟩
      unfold memStep
      simp only [hp]
      rfl
    | some p =>
      obtain ⟨hj, rfl⟩ := List.getElem?_eq_some_iff.1 hp
      have hs : s.objs[j]? = some (s.objs[j]'(hl ▸ hj)) := List.getElem?_eq_getElem _
      obtain ⟨c, h1, h2⟩ := i.objs.get hj (hl ▸ hj)
      simp only [List.get_eq_getElem] at h1 h2
      have hb : s.built[s.objs[j]'(hl ▸ hj)]? = some (c.f, c.dead) := by rw [i.built, List.getElem?_map, h1]; rfl
      have hm : memStep z ps (.destroy j) h = (ps[j].destroy h >>= fun x => Except.ok (ps, x.2)) := by
        unfold memStep
        simp only [hp]
        rfl
      cases hd : c.dead with
      | true =>
        refine .inl ⟨by simp [Mem.step, hs, hb, hd], ?_⟩
        rw [hm, h2, i.dead h1 hd]
        rfl
      | false =>
        obtain ⟨h', h3, h4⟩ := i.kill h1 hd
        refine .inr ⟨_, _, ps, h', by simp only [Mem.step, hs, hb, hd], ?_, h4⟩
        rw [hm, h2, h3]
        rfl

theorem run_inv {z : Sizeof} (ops : List MemOp) : ∀ {s : Mem.St} {cells : List Cell} {ps : List SurfPtr} {h : Heap}, Inv z s cells ps h →
    (Mem.run s ops = none ∧ memRun z ps ops h = .error .badFree) ∨
    ∃ s' cells' ps' h', Mem.run s ops = some s' ∧ memRun z ps ops h = .ok (ps', h') ∧ Inv z s' cells' ps' h' := by
  induction ops with
  | nil => intro s cells ps h i; exact .inr ⟨s, cells, ps, h, rfl, rfl, i⟩
  | cons op ops ih =>
    intro s cells ps h i
    have hm : memRun z ps (op :: ops) h = (memStep z ps op h >>= fun x => memRun z x.1 ops x.2) := rfl
    rcases step_inv i op with ⟨h1, h2⟩ | ⟨s', cells', ps', h', h1, h2, h3⟩
    · refine .inl ⟨by simp [Mem.run, h1], ?_⟩
      rw [hm, h2]
      rfl
    · have h4 : Mem.run s (op :: ops) = Mem.run s' ops := by simp [Mem.run, h1]
      have h5 : memRun z ps (op :: ops) h = memRun z ps' ops h' := by rw [hm, h2]; rfl
      rw [h4, h5]
      exact ih h3

theorem Inv.start (z : Sizeof) : Inv z ⟨[], []⟩ [] [] ⟨1, []⟩ :=
  ⟨rfl, .nil, .nil, by simp, rfl, Nat.le_refl _⟩

theorem live_perm {z : Sizeof} : ∀ (cells : List Cell), ((cells.flatMap (Cell.live z)).map Block.bytes).Perm
    ((cells.map fun c => (c.f, c.dead)).flatMap fun x => Mem.rest z x.1 ++ if x.2 then [] else Mem.arrays x.1)
  | [] => .nil
  | c :: cells => by
    simp only [List.flatMap_cons, List.map_append, List.map_cons]
    refine List.Perm.append ?_ (live_perm cells)
    unfold Cell.live
    cases c.dead with
    | true => simp only [if_true, List.append_nil]; rw [one_rest]
    | false => simpa using one_all z c.f c.base

/-! ## Theorems -/

/-- C50.  A program that constructs filters, reads them from buffers, copies and destroys them releases only blocks in use, and in the way
they were got, exactly if no filter is destroyed twice (where copies are the same filter). -/
theorem C50 (z : Sizeof) (ops : List MemOp) :
    (∃ ps h, memRun z [] ops ⟨1, []⟩ = .ok (ps, h)) ↔ ∃ s, Mem.run ⟨[], []⟩ ops = some s := by
  rcases run_inv ops (Inv.start z) with ⟨h1, h2⟩ | ⟨s', cells', ps', h', h1, h2, h3⟩
  · simp [h1, h2]
  · simp [h1, h2]

/-- C51.  The blocks that remain in use: of every filter its ten objects and the level boundaries of the dense levels, and the arrays of
those that were not destroyed.  Missing from C51: that nothing remains of a destroyed filter (`C51_refuted`). -/
theorem C51_partial (z : Sizeof) (ops : List MemOp) (ps : List SurfPtr) (h : Heap) (he : memRun z [] ops ⟨1, []⟩ = .ok (ps, h)) :
    ∃ s, Mem.run ⟨[], []⟩ ops = some s ∧
      (h.live.map Block.bytes).Perm (s.built.flatMap fun x => Mem.rest z x.1 ++ if x.2 then [] else Mem.arrays x.1) := by
  rcases run_inv ops (Inv.start z) with ⟨h1, h2⟩ | ⟨s', cells', ps', h', h1, h2, h3⟩
  · rw [h2] at he; cases he
  · rw [h2] at he
    cases he
    refine ⟨s', h1, ?_⟩
    rw [h3.live, h3.built]
    exact live_perm cells'

/-- C51 fails for every filter: eleven blocks remain of a destroyed filter. -/
theorem C51_refuted (z : Sizeof) (f : Filter) : ∃ ps h, memRun z [] [.create f, .destroy 0] ⟨1, []⟩ = .ok (ps, h) ∧
    h.live.length = 11 ∧ (h.live.map Block.bytes).Perm (Mem.rest z f) := by
  have hrun : Mem.run ⟨[], []⟩ [.create f, .destroy 0] = some ⟨[(f, true)], [0]⟩ := rfl
  obtain ⟨ps, h, he⟩ := (C50 z _).2 ⟨_, hrun⟩
  obtain ⟨s, h1, h2⟩ := C51_partial z _ ps h he
  rw [hrun] at h1
  cases h1
  have h3 : (h.live.map Block.bytes).Perm (Mem.rest z f) := by simpa using h2
  exact ⟨ps, h, he, by simpa [Mem.rest] using h3.length_eq, h3⟩

section Usage
variable [Env]

theorem rank_bytes {z : Sizeof} {b : BitvectorRank} (hz : z.rank ≤ 2 ^ 20) (h : b.Wf) :
    b.size z = z.rank + b.bits.length * 8 + b.rankLut.length * 4 := by
  have h1 := Bitvector.numWords_bounds b.toBitvector
  have h2 := h.num
  have h3 : b.numBits / b.basicBlockSize ≤ b.numBits / 64 := Nat.div_le_div_left h.blk.1 (by omega)
  rw [M32_eq] at h2
  rw [BitvectorRank.size, BitvectorRank.rankLutSize, Bitvector.bitsSize, h.bits, h.lutLen, u32, u32, M32_eq]
  generalize b.numBits / b.basicBlockSize = q at *
  omega

theorem select_bytes {z : Sizeof} {b : BitvectorSelect} (hz : z.select ≤ 2 ^ 20) (h : b.Wf) :
    b.size z = z.select + b.bits.length * 8 + b.selectLut.length * 4 := by
  have h1 := Bitvector.numWords_bounds b.toBitvector
  have h2 := h.num
  have h4 := h.ones
  have h3 : b.numOnes / b.sampleInterval ≤ b.numOnes / 64 := Nat.div_le_div_left h.si.1 (by omega)
  rw [M32_eq] at h2 h4
  rw [BitvectorSelect.size, BitvectorSelect.selectLutSize, Bitvector.bitsSize, h.bits, h.lutLen, u32, u32, M32_eq]
  generalize b.numOnes / b.sampleInterval = q at *
  omega

theorem suffix_bytes {z : Sizeof} {b : BitvectorSuffix} (hz : z.suffix ≤ 2 ^ 20) (h : b.Wf) :
    b.size z = z.suffix + (if b.type = .kNone then [] else [b.bits.length * 8]).sum := by
  have h1 := Bitvector.numWords_bounds b.toBitvector
  have h2 := h.num
  rw [M32_eq] at h2
  rw [BitvectorSuffix.size, Bitvector.bitsSize, u32, M32_eq]
  split
  · next hn =>
    have := h.none hn
    simp only [List.sum_nil]
    omega
  · have := h.bits
    simp only [List.sum_cons, List.sum_nil]
    omega

theorem usage {z : Sizeof} {f : Filter} (hz : Mem.Small z) (h : f.Wf) (hn : f.sparse.labels.numBytes < 2 ^ 32 - 2 ^ 20) :
    Mem.bytes z f + 8 + f.sparse.labels.numBytes =
      f.getMemoryUsage z + z.sparse + f.dense.levelCuts.length * 4 + f.sparse.levelCuts.length * 4 + f.sparse.labels.labels.length := by
  obtain ⟨z1, z2, z3, z4⟩ := hz
  have hl : f.sparse.labels.size z = z.labels + f.sparse.labels.numBytes := by
    rw [LabelVector.size, u32, M32_eq]
    omega
  unfold Filter.getMemoryUsage LoudsDense.getMemoryUsage LoudsSparse.getMemoryUsage Mem.bytes Mem.rest Mem.arrays
  rw [rank_bytes z1 h.dense.lb, rank_bytes z1 h.dense.cb, rank_bytes z1 h.dense.pb, rank_bytes z1 h.sparse.cb,
    select_bytes z2 h.sparse.lb, suffix_bytes z4 h.dense.sf, suffix_bytes z4 h.sparse.sf, hl]
  simp only [List.sum_append, List.sum_cons, List.sum_nil]
  omega

theorem create_labels {cfg : Config} {keys : List Key} {f : Filter} (h : Filter.create cfg keys = .ok f) :
    f.sparse.labels.labels.length =
      f.sparse.labels.numBytes * (f.sparse.labels.numBytes / 64 + 1) % 2 ^ 32 := by
  unfold Filter.create at h
  obtain ⟨b, -, h⟩ := bind_ok_iff.1 h
  obtain ⟨d, -, h⟩ := bind_ok_iff.1 h
  obtain ⟨t, ht, h⟩ := bind_ok_iff.1 h
  cases h
  unfold LoudsSparse.mk' at ht
  dsimp only at ht
  have key : ∃ ls, LabelVector.mk' ls = .ok t.labels := by
    by_cases h1 : b.startLevel = 0 <;> by_cases h2 : cfg.suffixType = .kNone
    · simp only [h1, h2, if_true, pure_bind, bind_ok_iff] at ht
      obtain ⟨l, hl, x1, -, x2, -, x3, -, x4, -, ht⟩ := ht
      cases ht
      exact ⟨_, hl⟩
    · simp only [h1, h2, if_true, if_false, pure_bind, bind_ok_iff] at ht
      obtain ⟨l, hl, x1, -, x2, -, x3, -, x4, -, x5, -, x6, -, ht⟩ := ht
      cases ht
      exact ⟨_, hl⟩
    · simp only [h1, h2, if_true, if_false, pure_bind, bind_ok_iff] at ht
      obtain ⟨y, -, l, hl, x1, -, x2, -, x3, -, x4, -, ht⟩ := ht
      cases ht
      exact ⟨_, hl⟩
    · simp only [h1, h2, if_false, pure_bind, bind_ok_iff] at ht
      obtain ⟨y, -, l, hl, x1, -, x2, -, x3, -, x4, -, x5, -, x6, -, ht⟩ := ht
      cases ht
      exact ⟨_, hl⟩
  obtain ⟨ls, hl⟩ := key
  generalize t.labels = lv at hl
  unfold LabelVector.mk' at hl
  dsimp only at hl
  split at hl
  · cases hl
  · cases hl
    rename_i hx
    simp only [List.length_append, List.length_replicate]
    rw [mul32, M32_eq] at hx ⊢
    omega

omit [Env] in
theorem trim_wf {f : Filter} (h : f.Wf) : f.trim.Wf := by
  refine ⟨h.dense, ⟨h.sparse.height, h.sparse.start, h.sparse.ncd, h.sparse.ccd, h.sparse.cuts, ⟨?_, h.sparse.labels.num⟩, h.sparse.cb,
    h.sparse.lb, h.sparse.sf, h.sparse.sum⟩⟩
  change f.sparse.labels.numBytes ≤ (f.sparse.labels.labels.take f.sparse.labels.numBytes).length
  rw [List.length_take]
  have := h.sparse.labels.len
  omega

omit [Env] in
theorem branches_ff {keys : List Key} (h : Spec.SingleFF keys) (l : Nat) : Spec.branches keys l = [] := by
  obtain ⟨k, h1, -⟩ := h
  unfold Spec.branches
  have : (keys.flatMap fun k => (k.inits.filter fun p => l ≤ p.length ∧ Spec.Shared keys p).map fun p => (p, k[p.length]?)) = [] := by
    rw [List.flatMap_eq_nil_iff]
    intro x hx
    rw [List.map_eq_nil_iff, List.filter_eq_nil_iff]
    intro p hp
    simp only [decide_eq_true_eq, not_and]
    rintro - ⟨a, ha, b, hb, hab, -⟩
    exact hab ((h1 a ha).trans (h1 b hb).symm)
  rw [this]
  rfl

theorem created {cfg : Config} {keys : List Key} (h : Setting cfg keys) (hs : Env.strict = false) (hk : keys.length ≤ 2 ^ 31) :
    ∃ f, Filter.create cfg keys = .ok f ∧ f.Wf ∧ f.sparse.labels.numBytes = (Spec.branches keys f.getSparseStartLevel).length + 1 ∧
      f.sparse.labels.numBytes < 2 ^ 32 - 2 ^ 20 ∧ f.dense.levelCuts.length = f.getSparseStartLevel ∧
      f.sparse.levelCuts.length = f.getHeight ∧ 2 ≤ f.getHeight := by
  have key : ∀ (f : Filter) (ts : List Str) (sw : Str → Word) (s : Nat), Filter.create cfg keys = .ok f → FRep cfg ts sw s f →
      (items ts 0 (maxLen ts + 1)).length ≤ 2 ^ 31 + 2 ^ 25 →
      f.sparse.labels.numBytes = (Spec.branches keys f.getSparseStartLevel).length + 1 →
      ∃ f, Filter.create cfg keys = .ok f ∧ f.Wf ∧ f.sparse.labels.numBytes = (Spec.branches keys f.getSparseStartLevel).length + 1 ∧
      f.sparse.labels.numBytes < 2 ^ 32 - 2 ^ 20 ∧ f.dense.levelCuts.length = f.getSparseStartLevel ∧
      f.sparse.levelCuts.length = f.getHeight ∧ 2 ≤ f.getHeight := by
    intro f ts sw s e hr hi hb
    have hw := hr.filterWf h.ok hi
    refine ⟨f, e, hw, hb, ?_, ?_, hw.sparse.cuts.1, ?_⟩
    · have h1 := congrArg List.length (items_split ts (Nat.zero_le s) hr.nodes_s)
      rw [List.length_append] at h1
      rw [hr.sparse.labN]
      omega
    · rw [hw.dense.cuts.1, hr.dense.height]
      exact hr.sparse.start.symm
    · have h1 : f.getHeight = maxLen ts + 1 := hr.sparse.height
      have h2 := hr.s1
      have h3 := hr.sH
      omega
  by_cases hff : Spec.SingleFF keys
  · obtain ⟨f, s, sw, e, hr, hp⟩ := h.create_ff hs hff
    refine key f _ sw s e hr (by decide) ?_
    rw [hr.sparse.labN, branches_ff hff]
    have hm : maxLen ([[0]] : List Str) = 1 := by decide
    have h2 := hr.s1
    have h3 := hr.sH
    have : s = 1 := by omega
    subst this
    decide
  · obtain ⟨f, s, e, hr, hp⟩ := h.create hs hff
    refine key f _ _ s e hr (few_items h hk) ?_
    rw [hr.sparse.labN, items_branches h.wf h.sorted hr.s1]
    have : f.getSparseStartLevel = s := hr.sparse.start
    rw [this]

/-- C52.  A filter with `n - 1` branches in the sparse levels occupies `n * (n / 64 + 1) - n` bytes more than `getMemoryUsage` reports, which
are behind its labels (computed in 32 bits), and four bytes for every level, dense ones twice, and those of a `LoudsSparse`, of which only
8 are counted.  One that was read from a buffer has no bytes behind its labels.
Missing from C52: that the number is right (`C52_refuted`), and more than `2^31` keys. -/
theorem C52_partial {cfg : Config} {keys : List Key} (h : Setting cfg keys) (hs : Env.strict = false) (hk : keys.length ≤ 2 ^ 31)
    {z : Sizeof} (hz : Mem.Small z) :
    ∃ f, Filter.create cfg keys = .ok f ∧
      (∀ n, n = (Spec.branches keys f.getSparseStartLevel).length + 1 → Mem.bytes z f + 8 + n =
        f.getMemoryUsage z + z.sparse + 4 * f.getSparseStartLevel + 4 * f.getHeight + n * (n / 64 + 1) % 2 ^ 32) ∧
      ∀ base fresh, base % 8 = 0 → ∃ data, f.serialize base fresh = .ok data ∧ ∀ base', base' % 8 = 0 →
        ∃ g, Filter.deSerialize base' data = .ok g ∧
          Mem.bytes z g + 8 = g.getMemoryUsage z + z.sparse + 4 * g.getSparseStartLevel + 4 * g.getHeight := by
  obtain ⟨f, e, hw, hb, hn, hd, hc, -⟩ := created h hs hk
  refine ⟨f, e, ?_, fun base fresh hb => ?_⟩
  · rintro n rfl
    rw [← hb, ← create_labels e]
    have := usage hz hw hn
    rw [hd, hc] at this
    omega
  · obtain ⟨data, e1, -, -, h2⟩ := Filter.roundtrip hw hb fresh
    refine ⟨data, e1, fun base' hb' => ⟨f.trim, by simpa using h2 base' [] hb', ?_⟩⟩
    have := usage hz (trim_wf hw) hn
    have e2 : f.trim.sparse.labels.labels.length = f.trim.sparse.labels.numBytes := by
      have := hw.sparse.labels.len
      change (f.sparse.labels.labels.take f.sparse.labels.numBytes).length = f.sparse.labels.numBytes
      rw [List.length_take]
      omega
    rw [e2] at this
    change Mem.bytes z f.trim + 8 = _ + z.sparse + 4 * f.getSparseStartLevel + 4 * f.getHeight
    change _ = _ + z.sparse + f.dense.levelCuts.length * 4 + f.sparse.levelCuts.length * 4 + _ at this
    rw [hd, hc] at this
    omega

/-- C52 fails for every filter: it always occupies more than `getMemoryUsage` says. -/
theorem C52_refuted {cfg : Config} {keys : List Key} (h : Setting cfg keys) (hs : Env.strict = false) (hk : keys.length ≤ 2 ^ 31)
    {z : Sizeof} (hz : Mem.Small z) (h8 : 8 ≤ z.sparse) :
    ∃ f, Filter.create cfg keys = .ok f ∧ f.getMemoryUsage z < Mem.bytes z f := by
  obtain ⟨f, e, hw, hb, hn, hd, hc, h2⟩ := created h hs hk
  refine ⟨f, e, ?_⟩
  have := usage hz hw hn
  have := hw.sparse.labels.len
  omega

end Usage

/-! ## Examples -/

/-- Sizes on a common 64-bit platform. -/
def z64 : Sizeof := ⟨32, 40, 16, 32, 48, 64, 400, 200⟩

example : Mem.Small z64 ∧ 8 ≤ z64.sparse := by unfold Mem.Small; decide

/-- The filter for the keys of an example. -/
def memF : Filter := match @Filter.create Env.iso cfgNone exKeys with
  | .ok f => f
  | .error _ => ⟨default, default⟩

/-- Two filters and a copy; each filter is destroyed once. -/
theorem C50_example : Mem.run ⟨[], []⟩ [.create memF, .load memF, .copy 0, .destroy 2, .destroy 1] = some ⟨[(memF, true), (memF, true)], [0, 1, 0]⟩ :=
  rfl

/-- Destroying a filter and then a copy of it releases the same arrays twice. -/
theorem C50_copy_refuted (z : Sizeof) (f : Filter) : memRun z [] [.create f, .copy 0, .destroy 0, .destroy 1] ⟨1, []⟩ = .error .badFree := by
  rcases run_inv [.create f, .copy 0, .destroy 0, .destroy 1] (Inv.start z) with ⟨h1, h2⟩ | ⟨s', cells', ps', h', h1, h2, h3⟩
  · exact h2
  · have : Mem.run ⟨[], []⟩ [.create f, .copy 0, .destroy 0, .destroy 1] = none := rfl
    rw [this] at h1
    cases h1

end Surf.Props
