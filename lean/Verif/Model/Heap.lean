import Verif.Model.Model

/-!
Model objects as Python objects: lists and Hamiltonians are mutable objects that several variables can refer
to. `Verif/Model/Model.lean` treats a model as a value; here every list, `Hamiltonian` and `Model` has an
address, methods change what is stored at an address, and constructors decide which addresses are shared
(`ggce/model.py:433-441, 785-803`, `ggce/engine/system.py:396`).

Simplifications: `SingleTerm` objects are values inside the list of terms. Constructors copy lists of terms deeply, so
that two lists share a `SingleTerm` only if the user puts the same object into both. A
system is represented by its private copy of the model, which is what `deepcopy` makes and `System.model`
returns. Equations hold further private copies, which nothing changes.
-/

namespace GGCE.Mem

variable {R : Type} [Field R] [LinearOrder R]

/-- a `Hamiltonian` object (model.py:433-441): addresses of its two lists, and its numbers -/
structure HamObj (R : Type) where
  terms : Nat
  freqs : Nat
  dimension : Nat
  hopping : R
  deriving DecidableEq

/-- a `Model` object (model.py:785-803): addresses of its Hamiltonian and of its two lists, and its
numbers -/
structure ModelObj (R : Type) where
  latticeConstant : R
  temperature : R
  ham : Nat
  maxPerSite : Option Int
  extent : Nat
  number : Nat
  absExtentOpt : Option Int
  nTypes : Nat
  deriving DecidableEq

/-- the memory: lists of terms, lists of frequencies, lists of integers, Hamiltonians and models, each with
its own addresses (for model.py:433-441, 785-803) -/
structure Heap (R : Type) where
  terms : List (List (SingleTerm R))
  freqs : List (List R)
  ints : List (List Int)
  hams : List (HamObj R)
  models : List (ModelObj R)
  deriving DecidableEq

namespace Heap

/-- The memory after `import ggce.model`: Python creates the default arguments once. The lists at address 0
are the defaults of `Hamiltonian.__init__` (model.py:434), the Hamiltonian at address 0 (with lists of its own at
address 1) and the integer lists at addresses 0 and 1 are the defaults of `Model.__init__` (model.py:789-792). -/
def initial : Heap R where
  terms := [[], []]
  freqs := [[], []]
  ints := [[], []]
  hams := [⟨1, 1, 1, 1⟩]
  models := []

/-- the value of the Hamiltonian at an address (model.py:217-227) -/
def ham (h : Heap R) (a : Nat) : Option (Hamiltonian R) := do
  let o ← h.hams[a]?
  let ts ← h.terms[o.terms]?
  let fs ← h.freqs[o.freqs]?
  pure ⟨ts, fs, o.dimension, o.hopping⟩

/-- the value of the model at an address: what all its public attributes show (model.py:559-721) -/
def view (h : Heap R) (a : Nat) : Option (Model R) := do
  let o ← h.models[a]?
  let H ← h.ham o.ham
  let ext ← h.ints[o.extent]?
  let num ← h.ints[o.number]?
  pure ⟨o.latticeConstant, o.temperature, H, o.maxPerSite, ext, num, o.absExtentOpt, o.nTypes⟩

/-- `Hamiltonian.__init__` (model.py:433-441) with the lists at the given addresses: both are copied.
Unknown addresses cannot occur in Python; nothing happens then. -/
def newHam (h : Heap R) (terms freqs : Nat) (dimension : Nat) (hopping : R) : Heap R :=
  match h.terms[terms]?, h.freqs[freqs]? with
  | some ts, some fs =>
    { h with
      terms := h.terms ++ [ts]
      freqs := h.freqs ++ [fs]
      hams := h.hams ++ [⟨h.terms.length, h.freqs.length, dimension, hopping⟩] }
  | _, _ => h

/-- `copy.deepcopy` of a Hamiltonian (model.py:798, system.py:396) -/
def copyHam (h : Heap R) (a : Nat) : Heap R :=
  match h.hams[a]? with
  | some o => h.newHam o.terms o.freqs o.dimension o.hopping
  | none => h

/-- `Model.__init__` (model.py:785-803): the Hamiltonian is copied deeply, the lists are copied -/
def newModel (h : Heap R) (latticeConstant temperature : R) (ham : Nat) (maxPerSite : Option Int)
    (extent number : Nat) (absExtentOpt : Option Int) (nTypes : Nat) : Heap R :=
  match h.ham ham, h.ints[extent]?, h.ints[number]? with
  | some _, some ext, some num =>
    let h1 := h.copyHam ham
    { h1 with
      ints := h1.ints ++ [ext, num]
      models := h1.models ++ [⟨latticeConstant, temperature, h1.hams.length - 1, maxPerSite, h1.ints.length,
        h1.ints.length + 1, absExtentOpt, nTypes⟩] }
  | _, _, _ => h

/-- `Model.from_parameters` (model.py:745-783): a new Hamiltonian from the default lists, and two new empty
lists, given to `Model.__init__` -/
def fromParameters (h : Heap R) (hopping latticeConstant temperature : R) (maxPerSite : Option Int)
    (dimension : Nat) : Heap R :=
  let h1 := h.newHam 0 0 dimension hopping
  let h2 := { h1 with ints := h1.ints ++ [[], []] }
  h2.newModel latticeConstant temperature (h2.hams.length - 1) maxPerSite (h2.ints.length - 2) (h2.ints.length - 1)
    none 0

/-- `self._model = deepcopy(model)` in `System.__init__` (system.py:396): the private model of the system is the
last one -/
def newSystem (h : Heap R) (a : Nat) : Heap R :=
  match h.models[a]? with
  | some o => h.newModel o.latticeConstant o.temperature o.ham o.maxPerSite o.extent o.number o.absExtentOpt o.nTypes
  | none => h

/-- `Hamiltonian.add_` (model.py:443-534) on the object at address `a`: the lists are changed in place -/
def hamAdd (P : Prims R) (h : Heap R) (a : Nat) (ct : String) (idx : Int) (freq : R) (g? lam? : Option R)
    (mult : R) : Heap R × Py Unit :=
  match h.hams[a]? with
  | none => (h, .error .attributeError)
  | some o =>
    if xor g?.isSome lam?.isSome = false then (h, .error .valueError)
    else
      match Hamiltonian.strength P o.hopping ct freq g? lam? with
      | .error .runtimeError => (h, .ok ())
      | .error e => (h, .error e)
      | .ok g =>
        match getSingleTerms ct (g * mult) idx freq with
        | .error .runtimeError => (h, .ok ())
        | .error e => (h, .error e)
        | .ok ts =>
          ({ h with
            freqs := h.freqs.modify o.freqs (fun fs => if freq ∈ fs then fs else fs ++ [freq])
            terms := h.terms.modify o.terms (fun l => l ++ ts) }, .ok ())

/-- `list.append` on the list of integers at an address (model.py:945-946, 963-964) -/
def append (h : Heap R) (a : Nat) (x : Int) : Heap R := { h with ints := h.ints.modify a (fun l => l ++ [x]) }

/-- `self._phonon_extent.append(M)`, `self._phonon_number.append(N)` and `self._n_phonon_types += 1`
(model.py:945-947, 962-964) -/
def register (h : Heap R) (a : Nat) (M N : Int) : Heap R :=
  match h.models[a]? with
  | none => h
  | some o =>
    let h1 := (h.append o.extent M).append o.number N
    { h1 with models := h1.models.modify a (fun o => { o with nTypes := o.nTypes + 1 }) }

/-- `Model.add_` (model.py:835-965) on the object at address `a`. An exception leaves the changes made
before it. -/
def modelAdd (P : Prims R) (h : Heap R) (a : Nat) (x : AddArgs R) : Heap R × Py Unit :=
  match h.models[a]?, h.view a with
  | some o, some m =>
    if m.addRejected x then (h, .ok ())
    else
      let pf := m.tfdPrefactors P x.freq
      let idx := m.callIndex x
      match h.hamAdd P o.ham x.ctype idx x.freq x.g x.lam pf.1 with
      | (h1, .error e) => (h1, .error e)
      | (h1, .ok ()) =>
        let h2 := h1.register a x.M x.N
        if m.temperature > 0 then
          match h2.hamAdd P o.ham x.ctype (idx + 1) (-x.freq) x.g x.lam pf.2 with
          | (h3, .error e) => (h3, .error e)
          | (h3, .ok ()) =>
            match x.Mtfd, x.Ntfd with
            | some Mt, some Nt => (h3.register a Mt Nt, .ok ())
            | _, _ => (h3, .error .assertionError)
        else (h2, .ok ())
  | _, _ => (h, .error .attributeError)

/-- The setters of a model that store a number: `lattice_constant`, `temperature`, `n_phonon_types`,
`phonon_max_per_site`, `phonon_absolute_extent` (model.py:570-578, 602-612, 632-638, 669-673). The update keeps the addresses. -/
def setNumbers (h : Heap R) (a : Nat) (latticeConstant temperature : R) (maxPerSite : Option Int)
    (absExtentOpt : Option Int) (nTypes : Nat) : Heap R :=
  { h with models := h.models.modify a (fun o => { o with latticeConstant, temperature, maxPerSite, absExtentOpt, nTypes }) }

/-- the setters `phonon_extent = []` (`true`) and `phonon_number = []` (`false`) (model.py:702-705, 718-721): a new
empty list -/
def setEmpty (h : Heap R) (a : Nat) (isExtent : Bool) : Heap R :=
  { h with
    ints := h.ints ++ [[]]
    models := h.models.modify a (fun o =>
      if isExtent then { o with extent := h.ints.length } else { o with number := h.ints.length }) }

/-- the setter `hamiltonian = x` (model.py:686-689): stores a reference, no copy -/
def setHam (h : Heap R) (a b : Nat) : Heap R :=
  if b < h.hams.length then { h with models := h.models.modify a (fun o => { o with ham := b }) } else h

/-- Any change in place of the two lists that `hamiltonian.terms` and `hamiltonian.phonon_frequencies` hand out
(model.py:217-223): assignments to the attributes of the `SingleTerm` objects (model.py:75-79, 92-96, 110-114, 128-132,
145-151, 169-173), appending, deleting. `ts` and `fs` are the contents afterwards. -/
def edit (h : Heap R) (a : Nat) (ts : List (SingleTerm R)) (fs : List R) : Heap R :=
  match h.hams[a]? with
  | none => h
  | some o =>
    { h with
      terms := h.terms.modify o.terms (fun _ => ts)
      freqs := h.freqs.modify o.freqs (fun _ => fs) }

end Heap

/-- The public operations. Addresses stand for the objects the program holds references to; `appendInt` is
a user changing a list obtained from `model.phonon_extent` or `model.phonon_number`
(model.py:433-534, 559-803, 835-965, system.py:396). -/
inductive Step (R : Type) where
  | newHam (terms freqs dimension : Nat) (hopping : R)
  | newModel (latticeConstant temperature : R) (ham : Nat) (maxPerSite : Option Int) (extent number : Nat)
      (absExtentOpt : Option Int) (nTypes : Nat)
  | fromParameters (hopping latticeConstant temperature : R) (maxPerSite : Option Int) (dimension : Nat)
  | newSystem (model : Nat)
  | addHam (ham : Nat) (ct : String) (idx : Int) (freq : R) (g? lam? : Option R) (mult : R)
  | addModel (model : Nat) (x : AddArgs R)
  | appendInt (list : Nat) (x : Int)
  | setNumbers (model : Nat) (latticeConstant temperature : R) (maxPerSite absExtentOpt : Option Int) (nTypes : Nat)
  | setEmpty (model : Nat) (isExtent : Bool)
  | setHam (model ham : Nat)
  | edit (ham : Nat) (terms : List (SingleTerm R)) (freqs : List R)

/-- The effect of an operation on the memory. An exception is taken to be caught by the program
(model.py:433-534, 559-803, 835-965, system.py:396). -/
def Step.run (P : Prims R) (h : Heap R) : Step R → Heap R
  | newHam t f d x => h.newHam t f d x
  | newModel l T H c e n ae nt => h.newModel l T H c e n ae nt
  | fromParameters x l T c d => h.fromParameters x l T c d
  | newSystem a => h.newSystem a
  | addHam a ct i f g l mu => (h.hamAdd P a ct i f g l mu).1
  | addModel a x => (h.modelAdd P a x).1
  | appendInt a x => h.append a x
  | setNumbers a l T c ae nt => h.setNumbers a l T c ae nt
  | setEmpty a b => h.setEmpty a b
  | setHam a b => h.setHam a b
  | edit a ts fs => h.edit a ts fs

end GGCE.Mem
