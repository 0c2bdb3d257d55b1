import Verif.Spec.Strings
import Mathlib.Data.List.Perm.Subperm
/-
Building trees with correct ranges.
-/
namespace Verif.Nixf
open Lexical Node Tree

namespace Tree

/-- The value of a literal is what its text says; the name of an attribute ends before its value; arguments
lie in lambdas. -/
def Val (src : Bytes) : Node → Prop
  | .exprString h p => ∃ hp fs, p = .parts hp fs ∧ ((∀ f ∈ fs, ∃ t, f = .text t) → fs.length ≤ 1) ∧
      (Strings.Quoted Strings.dqCode src h.range.l.offset (Strings.pieces fs) h.range.r.offset ∨
       Strings.Quoted Strings.indCode src h.range.l.offset (Strings.pieces fs) h.range.r.offset ∨
       fs = [.text (slice src h.range)] ∧ ∃ c ∈ (slice src h.range).head?, c ∈ letters)
  | .exprPath h p => ∃ hp fs, p = .parts hp fs ∧
      Strings.Verbatim src h.range.l.offset (Strings.pieces fs) h.range.r.offset
  | .exprInt h v => ∃ n, Strings.Decimal (slice src h.range) n ∧ v = if n < 2 ^ 63 then Int.ofNat n else 0
  | .exprFloat h t => t = slice src h.range
  | .exprSPath h t => slice src h.range = 60 :: t ++ [62]
  | .attrPath h ns _ => ∀ n ∈ ns, n.rCur.offset ≤ h.range.r.offset
  | .binding _ p _ v => v.isNode = true → p.rCur.offset ≤ v.lCur.offset
  | .attr _ k v _ => v.isNode = true → k.rCur.offset ≤ v.rCur.offset
  | .lambdaArg h i f => (i.isNode = true ∨ i = .null ∧ f.isNode = true) ∧
      ∀ m ∈ [i, f], m.isNode = true → h.range.l.offset ≤ m.lCur.offset ∧ m.rCur.offset ≤ h.range.r.offset
  | .exprLambda h a _ => a.isNode = true → h.range.l.offset ≤ a.lCur.offset ∧ a.rCur.offset ≤ h.range.r.offset
  | _ => True

/-- Range and value of a node. -/
def OkV (src : Bytes) (n : Node) : Prop := Ok src n ∧ Val src n

/-- What the parser guarantees for a node. -/
structure Good (src : Bytes) (n : Node) : Prop where
  ok : All subs (OkV src) n
  nest : All children Nest n
  recIn : RecIn n

abbrev OkAll (src : Bytes) (n : Node) : Prop := All subs (OkV src) n

theorem All.here {f : Node → List Node} {P : Node → Prop} {n : Node} (h : All f P n) : P n := by
  cases h; assumption

theorem All.sub {f : Node → List Node} {P : Node → Prop} {n m : Node} (h : All f P n) (hm : m ∈ f n) : All f P m := by
  cases h with
  | mk _ _ hs => exact hs m hm

theorem atZero (src : Bytes) : At src default := by
  have e : (default : Cursor) = ⟨0, 0, 0⟩ := rfl
  rw [e]
  exact ⟨Nat.zero_le _, by simp [posOf]⟩

theorem All.imp {f : Node → List Node} {P Q : Node → Prop} (h : ∀ n, P n → Q n) {n : Node} (hn : All f P n) : All f Q n := by
  induction hn with
  | mk n hp _ ih => exact .mk n (h n hp) ih

theorem All.at_l {src : Bytes} {n : Node} (h : OkAll src n) : At src n.range.l := by
  unfold Node.range Node.hd
  cases hh : n.hd? with
  | none => exact atZero src
  | some x => exact (h.here.1.1 x hh).1

theorem All.at_r {src : Bytes} {n : Node} (h : OkAll src n) : At src n.range.r := by
  unfold Node.range Node.hd
  cases hh : n.hd? with
  | none => exact atZero src
  | some x => exact (h.here.1.1 x hh).2.1

theorem All.le {src : Bytes} {n : Node} (h : OkAll src n) : n.lCur.offset ≤ n.rCur.offset := by
  unfold lCur rCur Node.range Node.hd
  cases hh : n.hd? with
  | none => exact Nat.le_refl _
  | some x => exact (h.here.1.1 x hh).2.2

theorem okAll_null {src : Bytes} : OkAll src .null :=
  .mk _ ⟨⟨fun h hh => by simp [hd?] at hh, fun _ _ h => by cases h⟩, trivial⟩ (fun m hm => by simp [subs] at hm)

theorem okAll_text {src : Bytes} {t : Bytes} : OkAll src (.text t) :=
  .mk _ ⟨⟨fun h hh => by simp [hd?] at hh, fun _ _ h => by cases h⟩, trivial⟩ (fun m hm => by simp [subs] at hm)

theorem okAll_attr {src : Bytes} {nm : Bytes} {k v : Node} {kind : AttrKind} (hk : OkAll src k) (hv : OkAll src v)
    (hr : v.isNode = true → k.rCur.offset ≤ v.rCur.offset) : OkAll src (.attr nm k v kind) :=
  .mk _ ⟨⟨fun h hh => by simp [hd?] at hh, fun _ _ h => by cases h⟩, hr⟩ (fun m hm => by
    simp [subs] at hm; rcases hm with rfl | rfl <;> assumption)

/-- A node that is no identifier. -/
theorem okAll_mk {src : Bytes} {n : Node} {h : Hd} (hh : n.hd? = some h) (hl : At src h.range.l) (hr : At src h.range.r)
    (hle : h.range.l.offset ≤ h.range.r.offset) (hid : ∀ i nm, n ≠ .identifier i nm) (hs : ∀ m ∈ subs n, OkAll src m)
    (hv : Val src n := by exact trivial) : OkAll src n :=
  .mk _ ⟨⟨fun h' hh' => by rw [hh] at hh'; cases hh'; exact ⟨hl, hr, hle⟩, fun i nm e => absurd e (hid i nm)⟩, hv⟩ hs

/-- Nodes following each other between two offsets; null pointers and texts are skipped. -/
def SeqOk (src : Bytes) : Nat → Nat → List Node → Prop
  | lo, hi, [] => lo ≤ hi
  | lo, hi, n :: ns =>
    OkAll src n ∧ (n.isNode = true → Good src n ∧ lo ≤ n.lCur.offset) ∧
      SeqOk src (if n.isNode then n.rCur.offset else lo) hi ns

theorem SeqOk.okAll {src : Bytes} {lo hi : Nat} {L : List Node} (h : SeqOk src lo hi L) : ∀ n ∈ L, OkAll src n := by
  induction L generalizing lo with
  | nil => simp
  | cons m ms ih =>
    intro n hn
    rcases List.mem_cons.mp hn with rfl | hn
    · exact h.1
    · exact ih h.2.2 n hn

theorem SeqOk.le {src : Bytes} {lo hi : Nat} {L : List Node} (h : SeqOk src lo hi L) : lo ≤ hi := by
  induction L generalizing lo with
  | nil => exact h
  | cons m ms ih =>
    have := ih h.2.2
    split at this
    · rename_i hm
      have := (h.2.1 hm).2
      have := h.1.le
      omega
    · exact this

theorem SeqOk.mem {src : Bytes} {lo hi : Nat} {L : List Node} (h : SeqOk src lo hi L) :
    ∀ n ∈ L, n.isNode = true → Good src n ∧ lo ≤ n.lCur.offset ∧ n.rCur.offset ≤ hi := by
  induction L generalizing lo with
  | nil => simp
  | cons m ms ih =>
    intro n hn hnode
    rcases List.mem_cons.mp hn with rfl | hn
    · obtain ⟨g, hl⟩ := h.2.1 hnode
      have := SeqOk.le h.2.2
      rw [if_pos hnode] at this
      exact ⟨g, hl, this⟩
    · obtain ⟨g, h1, h2⟩ := ih h.2.2 n hn hnode
      refine ⟨g, ?_, h2⟩
      split at h1
      · rename_i hm
        have := (h.2.1 hm).2
        have := h.1.le
        omega
      · exact h1

theorem SeqOk.apart {src : Bytes} {lo hi : Nat} {L : List Node} (h : SeqOk src lo hi L) :
    (L.filter isNode).Pairwise Apart := by
  induction L generalizing lo with
  | nil => simp
  | cons m ms ih =>
    rw [List.filter_cons]
    split
    · rename_i hm
      refine List.pairwise_cons.mpr ⟨?_, ih h.2.2⟩
      intro n hn
      obtain ⟨hn1, hn2⟩ := List.mem_filter.mp hn
      have := (SeqOk.mem h.2.2 n hn1 hn2).2.1
      rw [if_pos hm] at this
      exact .inl this
    · exact ih h.2.2

theorem SeqOk.r_le {src : Bytes} {lo hi : Nat} {L : List Node} (h : SeqOk src lo hi L) : ∀ n ∈ L, n.rCur.offset ≤ hi := by
  intro n hn
  cases hh : n.hd? with
  | none => simp [rCur, Node.range, Node.hd, hh]; exact Nat.zero_le _
  | some x => exact (h.mem n hn (by simp [isNode, hh])).2.2

/-- Enlarge the bounds. -/
theorem SeqOk.mono {src : Bytes} {lo hi lo' hi' : Nat} {L : List Node} (h : SeqOk src lo hi L) (h1 : lo' ≤ lo)
    (h2 : hi ≤ hi') : SeqOk src lo' hi' L := by
  induction L generalizing lo lo' with
  | nil => exact Nat.le_trans h1 (Nat.le_trans h h2)
  | cons m ms ih =>
    obtain ⟨a, b, c⟩ := h
    refine ⟨a, fun hm => ⟨(b hm).1, Nat.le_trans h1 (b hm).2⟩, ?_⟩
    split
    · rename_i hm; rw [if_pos hm] at c; exact ih c (Nat.le_refl _)
    · rename_i hm; rw [if_neg hm] at c; exact ih c h1

theorem SeqOk.append {src : Bytes} {lo mid hi : Nat} {L L' : List Node} (h : SeqOk src lo mid L)
    (h' : SeqOk src mid hi L') : SeqOk src lo hi (L ++ L') := by
  induction L generalizing lo with
  | nil => exact h'.mono h (Nat.le_refl _)
  | cons m ms ih => exact ⟨h.1, h.2.1, ih h.2.2⟩

theorem seq_null {src : Bytes} {lo hi : Nat} {L : List Node} (h : SeqOk src lo hi L) : SeqOk src lo hi (.null :: L) :=
  ⟨okAll_null, fun h => by simp [isNode, hd?] at h, by simpa [isNode, hd?] using h⟩

theorem seq_text {src : Bytes} {lo hi : Nat} {t : Bytes} {L : List Node} (h : SeqOk src lo hi L) :
    SeqOk src lo hi (.text t :: L) :=
  ⟨okAll_text, fun h => by simp [isNode, hd?] at h, by simpa [isNode, hd?] using h⟩

theorem seq_cons {src : Bytes} {lo hi : Nat} {n : Node} {L : List Node} (hg : Good src n) (hl : n.isNode = true)
    (hlo : lo ≤ n.lCur.offset) (h : SeqOk src n.rCur.offset hi L) : SeqOk src lo hi (n :: L) :=
  ⟨hg.ok, fun _ => ⟨hg, hlo⟩, by rw [if_pos hl]; exact h⟩

theorem apart_symm {a b : Node} (h : Apart a b) : Apart b a := h.symm

theorem subperm_pairwise {R : Node → Node → Prop} (hR : ∀ {a b}, R a b → R b a) {l l' : List Node} (h : l.Subperm l')
    (hp : l'.Pairwise R) : l.Pairwise R := by
  obtain ⟨m, h1, h2⟩ := h
  exact (h1.pairwise_iff hR).mp (hp.sublist h2)

/-- A node made of nodes that follow each other. -/
theorem Good.mk' {src : Bytes} {n : Node} {h : Hd} {L : List Node} (hh : n.hd? = some h) (hl : At src h.range.l)
    (hr : At src h.range.r) (hseq : SeqOk src h.range.l.offset h.range.r.offset L)
    (hc : n.children.Subperm (L.filter isNode)) (hsub : ∀ m ∈ subs n, m ∈ L ∨ OkAll src m)
    (hid : ∀ i nm, n ≠ .identifier i nm) (hrec : RecIn n) (hv : Val src n := by exact trivial) : Good src n := by
  have hin : ∀ c ∈ n.children, c ∈ L ∧ c.isNode = true := fun c hc' => List.mem_filter.mp (hc.subset hc')
  refine ⟨okAll_mk hh hl hr hseq.le hid (fun m hm => ?_) hv, .mk _ ⟨fun c hc' => ?_, fun _ => ?_, fun c hc' => .inl ?_⟩
    fun c hc' => ?_, hrec⟩
  · rcases hsub m hm with h | h
    · exact hseq.okAll m h
    · exact h
  · obtain ⟨h1, h2⟩ := hin c hc'
    obtain ⟨g, k1, k2⟩ := hseq.mem c h1 h2
    refine .inl ⟨?_, ?_⟩
    · simpa [lCur, Node.range, Node.hd, hh] using k1
    · simpa [rCur, Node.range, Node.hd, hh] using k2
  · exact subperm_pairwise apart_symm hc hseq.apart
  · obtain ⟨h1, h2⟩ := hin c hc'
    exact (hseq.mem c h1 h2).1.recIn
  · obtain ⟨h1, h2⟩ := hin c hc'
    exact (hseq.mem c h1 h2).1.nest

theorem good_ident {src : Bytes} {h : Hd} {nm : Bytes} (hl : At src h.range.l) (hr : At src h.range.r)
    (hle : h.range.l.offset ≤ h.range.r.offset) (hn : nm = slice src h.range) : Good src (.identifier h nm) :=
  ⟨.mk _ ⟨⟨fun h' hh => by cases hh; exact ⟨hl, hr, hle⟩, fun h' nm' e => by cases e; exact hn⟩, trivial⟩ (by simp [subs]),
   .mk _ ⟨by simp [children], by simp [children], by simp [children]⟩ (by simp [children]),
   fun _ _ _ _ _ e => by cases e⟩

/-- A node without children. -/
theorem good_leaf {src : Bytes} {n : Node} {h : Hd} (hh : n.hd? = some h) (hl : At src h.range.l) (hr : At src h.range.r)
    (hle : h.range.l.offset ≤ h.range.r.offset) (hc : n.children = []) (hs : subs n = []) (hid : ∀ i nm, n ≠ .identifier i nm)
    (hrec : RecIn n) (hv : Val src n := by exact trivial) : Good src n :=
  .mk' (L := []) hh hl hr hle (by rw [hc]; exact List.nil_subperm) (by simp [hs]) hid hrec hv

end Tree
end Verif.Nixf
