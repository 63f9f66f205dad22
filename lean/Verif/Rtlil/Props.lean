import Verif.Rtlil.Exists

/-!
# Properties of the import of netlists
-/

namespace Heir.Rtlil

/-! ## Examples -/

namespace Ex

def a : Wire := ⟨0, 2, .input 1⟩
def b : Wire := ⟨1, 1, .input 2⟩
def y : Wire := ⟨2, 3, .output 3⟩
def z : Wire := ⟨3, 2, .output 4⟩
def n : Wire := ⟨4, 1, .none⟩

/-- `n = a[0] & b`, `y[1] = lut(n, a[1])` (exclusive or), `y[0] = ~n`, `y[2] = 1`, `z = a`. -/
def net : Netlist where
  wires := [a, b, y, z, n]
  cells := [⟨.gate .and, [[.wire a 0], [.wire b 0]], [.wire n 0]⟩,
    ⟨.lut 2 [false, true, true, false], [[.wire n 0], [.wire a 1]], [.wire y 1]⟩,
    ⟨.gate .not, [[.wire n 0]], [.wire y 0]⟩]
  conns := [([.wire y 2], [.const true]), (z.sig, a.sig)]

theorem served : net.Served [a, b] [y, z] where
  ports := {
    inputs := by
      intro i w
      simp only [net, List.mem_cons, List.not_mem_nil, or_false]
      rcases i with _ | _ | i
      · simp only [List.getElem?_cons_zero, Option.some.injEq]
        constructor
        · rintro rfl; exact ⟨.inl rfl, rfl⟩
        · rintro ⟨rfl | rfl | rfl | rfl | rfl, h⟩ <;> first | rfl | simp [b, y, z, n] at h
      · simp only [List.getElem?_cons_succ, List.getElem?_cons_zero, Option.some.injEq]
        constructor
        · rintro rfl; exact ⟨.inr (.inl rfl), rfl⟩
        · rintro ⟨rfl | rfl | rfl | rfl | rfl, h⟩ <;> first | rfl | simp [a, y, z, n] at h
      · simp only [List.getElem?_cons_succ, List.getElem?_nil, reduceCtorEq, false_iff]
        rintro ⟨rfl | rfl | rfl | rfl | rfl, h⟩ <;> simp [a, b, y, z, n] at h
    outputs := by
      intro i w
      simp only [net, List.mem_cons, List.not_mem_nil, or_false]
      rcases i with _ | _ | i
      · simp only [List.getElem?_cons_zero, Option.some.injEq]
        constructor
        · rintro rfl; exact ⟨.inr (.inr (.inl rfl)), rfl⟩
        · rintro ⟨rfl | rfl | rfl | rfl | rfl, h⟩ <;> first | rfl | simp [a, b, z, n] at h
      · simp only [List.getElem?_cons_succ, List.getElem?_cons_zero, Option.some.injEq]
        constructor
        · rintro rfl; exact ⟨.inr (.inr (.inr (.inl rfl))), rfl⟩
        · rintro ⟨rfl | rfl | rfl | rfl | rfl, h⟩ <;> first | rfl | simp [a, b, y, n] at h
      · simp only [List.getElem?_cons_succ, List.getElem?_nil, reduceCtorEq, false_iff]
        rintro ⟨rfl | rfl | rfl | rfl | rfl, h⟩ <;> simp [a, b, y, z, n] at h
        omega
    all := by
      simp only [net, List.mem_cons, List.not_mem_nil, or_false]
      rintro w (rfl | rfl | rfl | rfl | rfl) ⟨id, h⟩ <;> simp [a, b, n, y, z] at h ⊢
    positive := by decide
    width := by decide
    names := by decide }
  cells := by
    refine ⟨by simp [Cell.Shape], ?_, ⟨_, rfl, by simp [Bit.Drivable, net, n]⟩, by simp [Cell.Shape], ?_,
      ⟨_, rfl, by simp [Bit.Drivable, net, y, Wire.isOutput]⟩, by simp [Cell.Shape], ?_,
      ⟨_, rfl, by simp [Bit.Drivable, net, y, Wire.isOutput]⟩, trivial⟩
    · simp [Bit.Ready, net, a, b, Wire.isInput]
    · simp [Bit.Ready, net, a, n, Wire.isInput]
    · simp [Bit.Ready, net, n]
  conns := by
    simp only [net, List.mem_cons, List.not_mem_nil, or_false]
    rintro p (rfl | rfl)
    · refine ⟨by simp, rfl, by simp [Bit.Drivable, y, Wire.isOutput], by simp [Bit.Ready], ?_⟩
      intro w h hw
      have := congrArg List.length h
      rw [sig_length] at this
      simp only [List.length_singleton] at this
      omega
    · refine ⟨by decide, by decide, ?_, ?_, ?_⟩
      · intro b hb
        obtain ⟨i, hi, rfl⟩ := List.mem_map.1 hb
        exact ⟨by simp, List.mem_range.1 hi, .inr (.inr ⟨_, rfl⟩)⟩
      · intro b hb
        obtain ⟨i, hi, rfl⟩ := List.mem_map.1 hb
        exact ⟨by simp, List.mem_range.1 hi, .inl ⟨_, rfl⟩⟩
      · intro w h hw
        have h1 : asWire a.sig = some w := (asWire_iff (by omega)).2 h
        have h2 : asWire a.sig = some a := by decide
        rw [h2, Option.some.injEq] at h1
        subst h1
        exact ⟨⟨_, rfl⟩, z, 0, by decide⟩
  driven := by
    simp only [List.mem_cons, List.not_mem_nil, or_false]
    rintro w (rfl | rfl) o ho
    · have : o = 0 ∨ o = 1 ∨ o = 2 := by simp only [y] at ho; omega
      rcases this with rfl | rfl | rfl
      · exact .inl ⟨_, .tail _ (.tail _ (.head _)), rfl⟩
      · exact .inl ⟨_, .tail _ (.head _), rfl⟩
      · exact .inr ⟨_, .head _, by simp⟩
    · refine .inr ⟨_, .tail _ (.head _), ?_⟩
      exact List.mem_map.2 ⟨o, List.mem_range.2 ho, rfl⟩

theorem oneDriver : net.OneDriver where
  once := by decide
  inputs := by
    intro w o hm
    have : net.assigned = [.wire n 0, .wire y 1, .wire y 0, .wire y 2, .wire z 0, .wire z 1] := by
      decide
    rw [this] at hm
    simp only [List.mem_cons, Bit.wire.injEq, List.not_mem_nil, or_false] at hm
    rintro ⟨id, h⟩
    rcases hm with ⟨rfl, -⟩ | ⟨rfl, -⟩ | ⟨rfl, -⟩ | ⟨rfl, -⟩ | ⟨rfl, -⟩ | ⟨rfl, -⟩ <;>
      simp [n, y, z] at h

end Ex

/-! ## C136: the function computes what the netlist computes -/

/-- **C136.** The import of a netlist succeeds, and for all values that agree with the netlist the
function takes the values of the inputs to those of the outputs.  Partial: a right side that is all
of a wire has to be an input, copied to adjacent bits of one wire. -/
theorem C136_import_partial {m : Netlist} {ins outs : List Wire} (hs : m.Served ins outs) {v : Values}
    (hv : Valid m v) : ∃ f, importModule m = some f ∧
      f.call (ins.map (Wire.bits v)) = some (outs.map (Wire.bits v)) := import_ok hs hv

/-- **C136.** The function is defined on all inputs: a netlist in which no bit is assigned twice has
values for them, and the function returns those of the outputs. -/
theorem C136_total_partial {m : Netlist} {ins outs : List Wire} (hs : m.Served ins outs)
    (hd : m.OneDriver) : ∃ f, importModule m = some f ∧ ∀ args : List (List Bool),
      args.map List.length = ins.map Wire.width →
      ∃ v, Valid m v ∧ ins.map (Wire.bits v) = args ∧ f.call args = some (outs.map (Wire.bits v)) := by
  have key : ∃ f, importModule m = some f := by
    obtain ⟨v, hv, -⟩ := valid_exists hs hd
      (args := ins.map fun w => List.replicate w.width false) (by simp [Function.comp_def])
    obtain ⟨f, hf, -⟩ := import_ok hs hv
    exact ⟨f, hf⟩
  obtain ⟨f, hf⟩ := key
  refine ⟨f, hf, fun args hl => ?_⟩
  obtain ⟨v, hv, he⟩ := valid_exists hs hd hl
  obtain ⟨f', hf', hc⟩ := import_ok hs hv
  rw [hf, Option.some.injEq] at hf'
  subst hf'
  exact ⟨v, hv, he, by rw [← he]; exact hc⟩

/-- **C136.** The outputs of a netlist that is served are a function of its inputs. -/
theorem C136_determined {m : Netlist} {ins outs : List Wire} (hs : m.Served ins outs) {v w : Values}
    (hv : Valid m v) (hw : Valid m w) (h : ins.map (Wire.bits v) = ins.map (Wire.bits w)) :
    outs.map (Wire.bits v) = outs.map (Wire.bits w) := by
  obtain ⟨f, hf, h1⟩ := import_ok hs hv
  obtain ⟨g, hg, h2⟩ := import_ok hs hw
  rw [hf, Option.some.injEq] at hg
  subst hg
  rw [h, h2, Option.some.injEq] at h1
  exact h1.symm

example : ∃ f, importModule Ex.net = some f ∧ ∀ x0 x1 x2 : Bool,
    f.call [[x0, x1], [x2]] = some [[!(x0 && x2), (x0 && x2) ^^ x1, true], [x0, x1]] := by
  refine ⟨_, by rfl, ?_⟩
  decide +kernel

example : Ex.net.Served [Ex.a, Ex.b] [Ex.y, Ex.z] ∧ Ex.net.OneDriver := ⟨Ex.served, Ex.oneDriver⟩

example : Valid Ex.net (fun w o => if w = Ex.n then false else if w = Ex.b then false else
    if w = Ex.y then (o ≠ 1 : Bool) || true else true) := by
  refine ⟨?_, ?_⟩
  · simp only [Ex.net, List.mem_cons, List.not_mem_nil, or_false]
    rintro c (rfl | rfl | rfl)
    · exact ⟨[_, _], _, rfl, rfl, by decide⟩
    · exact ⟨[_, _], _, rfl, rfl, by decide⟩
    · exact ⟨[_], _, rfl, rfl, by decide⟩
  · decide

/-! ## Netlists that are not served -/

namespace Ex

def i4 : Wire := ⟨0, 4, .input 1⟩
def i2 : Wire := ⟨0, 2, .input 1⟩
def o0 : Wire := ⟨1, 2, .output 2⟩
def o1 : Wire := ⟨2, 2, .output 3⟩

/-- Two outputs with the same value: the bits of the first are assigned by cells and the second is a
copy of the first. -/
def twice : Netlist where
  wires := [i2, o0, o1]
  cells := [⟨.gate .not, [[.wire i2 0]], [.wire o0 0]⟩, ⟨.gate .not, [[.wire i2 1]], [.wire o0 1]⟩]
  conns := [(o1.sig, o0.sig)]

/-- An input that is split into two outputs. -/
def split : Netlist where
  wires := [i4, o0, o1]
  cells := []
  conns := [(o0.sig ++ o1.sig, i4.sig)]

/-- An output that is a copy of an input, and another one with the bits of the first swapped. -/
def swapped : Netlist where
  wires := [i2, o0, o1]
  cells := []
  conns := [(o0.sig, i2.sig), (o1.sig, [.wire o0 1, .wire o0 0])]

/-- An output port before the input port. -/
def outFirst : Netlist where
  wires := [⟨0, 1, .output 1⟩, ⟨1, 1, .input 2⟩]
  cells := []
  conns := [([.wire ⟨0, 1, .output 1⟩ 0], [.wire ⟨1, 1, .input 2⟩ 0])]

end Ex

/-- **C136** is violated: a copy of a whole output fails an assertion of `getBit`, because the bits of
outputs are not in the table of wires (`RTLILImporter.cpp:93-97`). -/
theorem C136_violated_copy : (∃ v, Valid Ex.twice v) ∧ Ex.twice.OneDriver ∧
    importModule Ex.twice = none := by
  refine ⟨⟨fun w _ => decide (w ≠ Ex.i2), ?_, by decide⟩, ⟨by decide, ?_⟩, by decide⟩
  · simp only [Ex.twice, List.mem_cons, List.not_mem_nil, or_false]
    rintro c (rfl | rfl) <;> exact ⟨[_], _, rfl, rfl, by decide⟩
  · intro w o hm
    have : Ex.twice.assigned = [.wire Ex.o0 0, .wire Ex.o0 1, .wire Ex.o1 0, .wire Ex.o1 1] := by
      decide
    rw [this] at hm
    simp only [List.mem_cons, Bit.wire.injEq, List.not_mem_nil, or_false] at hm
    rintro ⟨id, h⟩
    rcases hm with ⟨rfl, -⟩ | ⟨rfl, -⟩ | ⟨rfl, -⟩ | ⟨rfl, -⟩ <;> simp [Ex.o0, Ex.o1] at h

/-- **C136** is violated: a whole input assigned to the concatenation of two outputs reaches
`llvm_unreachable` in `addResultBit` (`RTLILImporter.cpp:119-124`), since only the right side is
tested for having more than one chunk (`:222-224`). -/
theorem C136_violated_split : (∃ v, Valid Ex.split v) ∧ importModule Ex.split = none :=
  ⟨⟨fun _ _ => false, by simp [Ex.split], by decide⟩, by decide⟩

/-- **C136** is violated: a bit of an output that was assigned as a whole is read as the default 0
(`RTLILImporter.cpp:107-109`), so that the function returns a wrong value. -/
theorem C136_violated_default : ∃ v, Valid Ex.swapped v ∧ ∃ f, importModule Ex.swapped = some f ∧
    f.call ([Ex.i2].map (Wire.bits v)) = some [[true, true], [false, false]] ∧
    [Ex.o0, Ex.o1].map (Wire.bits v) = [[true, true], [true, true]] :=
  ⟨fun _ _ => true, ⟨by simp [Ex.swapped], by decide⟩, _, rfl, by decide, by decide⟩

/-- **C136** is violated: outputs are looked up after the inputs, whatever their numbers
(`RTLILImporter.cpp:192-193, 247`). -/
theorem C136_violated_order : (∃ v, Valid Ex.outFirst v) ∧ importModule Ex.outFirst = none :=
  ⟨⟨fun _ _ => false, by simp [Ex.outFirst], by decide⟩, by decide⟩

end Heir.Rtlil
