import Verif.Machine.StructEx
import Verif.Machine.Call
/-
Example for C31: `f(x) = x + x + 5`, called as `z = f(y)`, and again as `y = f(z)`.
-/

namespace Eud.SC.Ex31

def p : Nat := 0x1000000
/-- parameter -/
def x : Nat := p - 4
def y : Nat := p - 4 + 72
def z : Nat := p - 4 + 144
def t (k : Nat) : Nat := 0x2000000 + 0x1000 * k
/-- result variable -/
def r : Nat := t 0
/-- end of the function -/
def fend : Nat := t 1
def nptr : Nat := fend + 348
/-- body: 10 .. 20, call sites: 30 .., 40 .. -/
def E : Env := ⟨fun i => epd i, fun _ => true⟩

def ga (l : List Asg) : List GA := l.map (fun g => ⟨.obj g.a, g.a, g.md, g.src⟩)

theorem ga_map (l : List Asg) : (ga l).map (fun g => (⟨g.a, g.md, g.src⟩ : Asg)) = l := by
  simp only [ga, List.map_map]
  exact List.map_id l

def bodyAsg : List Asg := [⟨r + 348, .set, .var x⟩, ⟨r + 348, .add, .var x⟩, ⟨r + 348, .add, .const 5⟩]
def call1 : List Asg := callAsg nptr (t 40) [(r, z + 348)] [(x + 348, .var y)]
def call2 : List Asg := callAsg nptr (t 50) [(r, y + 348)] [(x + 348, .var z)]

/-- Addresses of `n` triggers in a row, then `l`. -/
def row (k n l i : Nat) : Nat := if i < n then t (k + i) else l

def Q0 : List Blk := (seqCompute E (row 10 3 fend) ((ga bodyAsg).map GA.pair)).getD []
def Q1 : List Blk := (seqCompute E (row 20 1 (t 10)) ((ga call1).map GA.pair)).getD []
def Q2 : List Blk := (seqCompute E (row 40 1 (t 10)) ((ga call2).map GA.pair)).getD []

def FE : SBlk := ⟨fend, ⟨[], retActs [r]⟩, some r, false⟩
def L : Layout := ⟨⟨[fretBlk r, FE], Q0 ++ Q1 ++ Q2, [x, y, z]⟩, [], []⟩

theorem laid : L.Laid p [0, 10, 0] := Layout.laidB_spec (show L.laidB p 3 = true by decide +kernel)

theorem gaOK (l : List Asg) (h : ∀ g ∈ l, EpdOK g.a) : ∀ g ∈ ga l, g.OK E := by
  intro g hg
  obtain ⟨a, ha, rfl⟩ := List.mem_map.1 hg
  exact ⟨rfl, h a ha, rfl⟩

theorem asgCode {l : List Asg} {ts : Nat → Nat} {Q : List Blk} (hem : seqCompute E ts ((ga l).map GA.pair) = some Q)
    (hQ : ∀ b ∈ Q, b ∈ L.P.seqs) (hts : ∀ i ≤ Q.length, ts i < 2 ^ 32) (hok : ∀ g ∈ l, EpdOK g.a) (r b k : Nat) :
    Code L r b k (.asg l) (ts 0) (ts Q.length) := by
  have := Code.asg (L := L) (r := r) (b := b) (k := k) hem hQ hts (gaOK l hok)
  rw [ga_map] at this
  exact this

theorem some_getD {α : Type} {o : Option (List α)} (h : o.isSome = true) : o = some (o.getD []) := by
  cases o <;> simp_all

theorem fcode : FuncCode L (t 10) fend nptr [r] (.asg bodyAsg) := by
  have hcr := laid.hole (b := fretBlk r) (by simp [L]) (o := 4) (by decide) (by decide +kernel) (by simp [L])
  have hcn := laid.hole (b := FE) (by simp [L]) (o := 348) (by decide) (by decide +kernel) (by simp [L])
  refine ⟨⟨0, 0, ?_⟩, ⟨by simp, ?_, hcn.1, ?_, by simp⟩⟩
  · exact asgCode (ts := row 10 3 fend) (Q := Q0) (some_getD (by decide +kernel)) (by simp +contextual [L])
      (by decide +kernel) (by decide +kernel) fend 0 0
  · intro v vs h
    simp only [List.cons.injEq] at h
    obtain ⟨rfl, rfl⟩ := h
    exact ⟨rfl, by simp [L, FE]⟩
  · intro v hv
    simp only [List.mem_singleton] at hv
    subst hv
    exact ⟨by simp [L], hcr.1, by decide⟩

theorem site1 : CallSite L (t 20) (t 40) (t 10) nptr [(r, z + 348)] [(x + 348, .var y)] :=
  ⟨⟨0, 0, 0, asgCode (l := call1) (ts := row 20 1 (t 10)) (Q := Q1) (some_getD (by decide +kernel)) (by simp +contextual [L])
      (by decide +kernel) (by decide +kernel) 0 0 0⟩, by decide⟩

theorem site2 : CallSite L (t 40) (t 50) (t 10) nptr [(r, y + 348)] [(x + 348, .var z)] :=
  ⟨⟨0, 0, 0, asgCode (l := call2) (ts := row 40 1 (t 10)) (Q := Q2) (some_getD (by decide +kernel)) (by simp +contextual [L])
      (by decide +kernel) (by decide +kernel) 0 0 0⟩, by decide⟩

def prog : Stmt := .seq (.prim (CallRel L fend nptr (t 40) (.asg bodyAsg) [(r, z + 348)] [(x + 348, .var y)]))
  (.prim (CallRel L fend nptr (t 50) (.asg bodyAsg) [(r, y + 348)] [(x + 348, .var z)]))

theorem code : Code L 0 0 0 prog (t 20) (t 50) :=
  Code.seq (C31_call laid.wf fcode site1 (by decide) 0 0 0) (C31_call laid.wf fcode site2 (by decide) 0 0 0)

theorem bodyDoes (s : Mem) : Does L (.asg bodyAsg) s fun s' => s' (r + 348) = s (x + 348) + s (x + 348) + 5 ∧ Only [r + 348] s s' := by
  refine Does.asg ?_ (by simp [bodyAsg, L]) ?_
  · intro g hg
    simp only [bodyAsg, List.mem_cons, List.not_mem_nil, or_false] at hg
    rcases hg with rfl | rfl | rfl <;> exact laid.cellB (by decide +kernel)
  · simp only [bodyAsg, runAsg, arith, Src.valM, set_eq]
    rw [set_ne (show x + 348 ≠ r + 348 by decide)]
    exact ⟨rfl, Only.set (Only.set (Only.set (Only.refl _ _) (by simp) _) (by simp) _) (by simp) _⟩

theorem callOk {d a : Nat} (hd : d = y ∨ d = z) (ha : a = y ∨ a = z) : CallOk L nptr [(r, d + 348)] [(x + 348, .var a)] [r + 348] := by
  refine ⟨laid.cellB (by decide +kernel), ?_, ?_, ?_, ?_, ?_, ?_, ?_, ?_, ?_, ?_, ?_, ?_, ?_⟩ <;>
    (try simp only [List.forall_mem_cons, List.not_mem_nil, false_imp_iff, implies_true, and_true, Src.var.injEq, forall_eq'])
  · refine ⟨laid.cellB (by decide +kernel), ?_⟩
    rcases hd with rfl | rfl <;> exact ⟨laid.cellB (by decide +kernel), by decide +kernel⟩
  · refine ⟨laid.cellB (by decide +kernel), ?_⟩
    rcases ha with rfl | rfl <;> decide +kernel
  all_goals rcases hd with rfl | rfl <;> rcases ha with rfl | rfl <;> decide +kernel

/-- One call: `d = f(a)`. -/
theorem call_does {back d a : Nat} (hback : back < 2 ^ 32) (hd : d = y ∨ d = z) (ha : a = y ∨ a = z) (s : Mem) :
    Does L (.prim (CallRel L fend nptr back (.asg bodyAsg) [(r, d + 348)] [(x + 348, .var a)])) s fun s' =>
      s' (d + 348) = s (a + 348) + s (a + 348) + 5 := by
  refine (C31_does laid.wf (callOk hd ha) fcode hback (Q := fun s2 => s2 (r + 348) = s (a + 348) + s (a + 348) + 5) ?_).mono ?_
  · intro s1 h1 _
    have e : s1 (x + 348) = s (a + 348) := h1 (x + 348, .var a) (by simp)
    refine (bodyDoes s1).wp.mono ?_
    rintro o s2 ⟨rfl, h2, h3⟩
    exact ⟨Or.inl rfl, by rw [h2, e], h3⟩
  · rintro s' ⟨⟨s2, h1, h2, -⟩, -⟩
    rw [h2 (r, d + 348) (by simp), h1]

/-- From `y = 10`: `z` becomes 25 and then `y` becomes 55. -/
example : ∃ m', Reaches ⟨L.mem p [0, 10, 0] [], t 20⟩ ⟨m', t 50⟩ ∧ m' (y + 348) = 55 := by
  obtain ⟨hok, hval⟩ := laid.ok []
  have hw := laid.wf
  obtain ⟨s', r', h⟩ := (Does.seq ((call_does (by decide) (Or.inr rfl) (Or.inl rfl) (L.view (L.mem p [0, 10, 0] []))).mono
    (fun s1 h1 => (call_does (back := t 50) (by decide) (Or.inl rfl) (Or.inr rfl) s1).mono (fun s2 h2 => h2.trans (by rw [h1])))) : Does L prog _ _).runs hw code
  obtain ⟨m', g1, -, g2⟩ := r' _ hok rfl
  refine ⟨m', g1, ?_⟩
  have ny : ¬ L.priv (y + 348) := (cell_val hw (v := y) (by simp [L])).2
  rw [← Layout.view_at (m := m') ny, g2, h, Layout.view_at ny, show L.mem p [0, 10, 0] [] (y + 348) = 10 from hval 1 (by decide)]
  decide

end Eud.SC.Ex31
