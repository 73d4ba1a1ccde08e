import Verif.Forest.Model
import Verif.Forest.Traverse
import Verif.Forest.Effects
import Verif.Forest.Queries
import Verif.Forest.Refine
import Verif.Forest.Props
import Verif.Forest.RefineProps
import Verif.Forest.CoarsenProps
import Verif.Forest.History
import Verif.Geom.GTree
import Verif.Geom.Bin
import Verif.OneD.Model
import Verif.OneD.Tiling
import Verif.OneD.Neighbors
import Verif.OneD.Props
import Verif.Quad.Model
import Verif.Quad.Geometry
import Verif.Quad.Maps
import Verif.Quad.Contains
import Verif.Quad.SegModel
import Verif.Quad.Segments
import Verif.Dcel.Model
import Verif.Dcel.Connect
import Verif.Dcel.Grid
import Verif.Dcel.Boundary
import Verif.Mesh.Model
import Verif.Mesh.Twins
import Verif.Mesh.Cells
import Verif.Mesh.Balance
import Verif.Mesh.Flagged
import Verif.Fem.Model
import Verif.Fem.Elements
import Verif.Fem.Derivs
import Verif.Fem.Hanging
import Verif.Quad.Biject
import Verif.Gauss.Model
import Verif.Gauss.Exact
import Verif.Gauss.Props
import Verif.Gauss.Spaces
import Verif.Gauss.Mapped
import Verif.Gauss.Composite
import Verif.Linsys.Model
import Verif.Linsys.Spec
import Verif.Linsys.Core
import Verif.Linsys.Link
import Verif.Linsys.Props
import Verif.Linsys.Witness
import Verif.Linsys.History
import Verif.Linsys.HistoryWitness
import Verif.Asm.Model
import Verif.Asm.Spec
import Verif.Asm.Core
import Verif.Asm.Assemble
import Verif.Asm.Consol
import Verif.Asm.Props
import Verif.Asm.Solve
import Verif.Asm.Witness
import Verif.Spd.Model
import Verif.Spd.Spec
import Verif.Spd.Eigen
import Verif.Spd.EigenProps
import Verif.Spd.EigenWitness
import Verif.Spd.Chol
import Verif.Spd.Modchol
import Verif.Spd.ModProps
import Verif.Spd.ModWitness
import Verif.Gmrf.Kernels
import Verif.Gmrf.Distance
import Verif.Gmrf.KernelProps
import Verif.Gmrf.Gram
import Verif.Gmrf.GramProps
import Verif.Gmrf.Field
import Verif.Gmrf.FieldProps
import Verif.Gmrf.Expansion
import Verif.Fem.Shape
import Verif.Fem.ShapeProps
import Verif.Form.Model
import Verif.Form.Basic
import Verif.Form.Props
import Verif.Form.Definite
import Verif.Form.Exact
import Verif.Form.Edges
import Verif.Form.Line
import Verif.Form.Stiff
import Verif.Form.Global
import Verif.Dof.RefCell
import Verif.Dof.Model
import Verif.Dof.Verts
import Verif.Dof.Number
import Verif.Dof.Points
import Verif.Dof.Classes
import Verif.Dof.Walk
import Verif.Dof.Concrete
import Verif.Dof.Share
import Verif.Dof.Distribute
import Verif.Dof.Props
import Verif.Dof.Hang
import Verif.Dof.Meet
import Verif.Dof.Continuity
import Verif.Dof.HangProps
import Verif.Dof.HangEx
import Verif.Phys.Coords
import Verif.Phys.Place
import Verif.Phys.Vertices
import Verif.Phys.VertProps
import Verif.Phys.Grid
import Verif.Phys.VertEx
import Verif.Bnd.Merge
import Verif.Bnd.MergeProps
import Verif.Bnd.OneLoop
import Verif.Bnd.Segments
import Verif.Bnd.SegProps
import Verif.Bnd.Boundary
import Verif.Bnd.Props
import Verif.Bnd.Grid
import Verif.Bnd.Ex
import Verif.Reg.Model
import Verif.Reg.Region
import Verif.Reg.Ents
import Verif.Reg.Dofs
import Verif.Reg.Ex
import Verif.Dir.Model
import Verif.Dir.Props
import Verif.Dir.Exact
import Verif.Dir.Assembler
import Verif.Dir.Whole
import Verif.Dir.Ex
import Verif.Fn.Model
import Verif.Fn.Bin
import Verif.Fn.Eval
import Verif.Fn.Value
import Verif.Fn.Poly
import Verif.Fn.Deriv
import Verif.Fn.Interp
import Verif.Fn.Differ
import Verif.Fn.Setup
import Verif.Fn.Ex
import Verif.Asm.Total
import Verif.Gal.Cells
import Verif.Gal.Flux
import Verif.Gal.Telescope
import Verif.Gal.Boundary
import Verif.Gal.Poly
import Verif.Gal.Local
import Verif.Gal.Model
import Verif.Gal.Galerkin
import Verif.Gal.Core
import Verif.Gal.Solve
import Verif.Gal.Total
import Verif.Gal.System
import Verif.Gal.SystemRun
import Verif.Gal.Inner
import Verif.Gal.Props
import Verif.Gal.Ex
import Verif.Line.Model
import Verif.Line.Dict
import Verif.Line.Sys
import Verif.Line.Tree
import Verif.Line.Share
import Verif.Line.Distribute
import Verif.Line.Props
import Verif.Line.Examples
import Verif.Line.VModel
import Verif.Line.VProps
import Verif.Line.Ends
import Verif.Line.VMain
import Verif.Line.VDir
import Verif.Line.VEx
import Verif.Bvp.Model
import Verif.Bvp.Leaves
import Verif.Bvp.Local
import Verif.Bvp.Core
import Verif.Bvp.Galerkin
import Verif.Bvp.Solve
import Verif.Bvp.Props
import Verif.Bvp.Conv
import Verif.Bvp.Refine
import Verif.Bvp.Ex
import Verif.Arr.Model
import Verif.Arr.Props
import Verif.Arr.Explicit
import Verif.Arr.ExpProps
import Verif.Intg.Model
import Verif.Intg.Spec
import Verif.Intg.Core
import Verif.Intg.Props
import Verif.Intg.Viol
import Verif.Intg.Line
import Verif.Intg.Ex
import Verif.Dof.Cache
import Verif.Cea.Spec
import Verif.Cea.Local
import Verif.Cea.Core
import Verif.Cea.Props
import Verif.Cea.Best
import Verif.Cea.Ex
import Verif.Cea.Taylor
import Verif.Cea.Geo
import Verif.Cea.Interp
import Verif.Cea.Rate
import Verif.Cea.Conv
import Verif.Cea.Uniform
import Verif.Per.Model
import Verif.Per.Names
import Verif.Per.Pairs
import Verif.Per.Inv
import Verif.Per.Around
import Verif.Per.WalkP
import Verif.Per.ShareP
import Verif.Per.Props
import Verif.Per.Grid
import Verif.Per.GridOk
import Verif.Per.MakePer
import Verif.Per.GridProps
import Verif.Per.Examples
import Verif.Dcel.Segments
import Verif.Per.Hang
import Verif.PySet.Model
import Verif.PySet.Probe
import Verif.PySet.Order
import Verif.PySet.Props
import Verif.PySet.Mesh
import Verif.PySet.Grid
import Verif.PySet.Line
import Verif.PySet.Ex
import Verif.Per.Single
import Verif.Coarse.Model
import Verif.Coarse.Inv
import Verif.Coarse.Props
import Verif.Coarse.Ext
import Verif.Coarse.Coords
import Verif.Coarse.Ex
import Verif.Cea.Nested
import Verif.Cea.Refine
import Verif.Tri.Model
import Verif.Tri.Props
import Verif.Sum.Assembled
import Verif.Sum.Props
import Verif.Samp.Model
import Verif.Samp.Proj
import Verif.Samp.Proj1
import Verif.Samp.Props
import Verif.Samp.Forms
import Verif.Samp.Count
import Verif.Neu.Flux
import Verif.Neu.Edge
import Verif.Neu.Model
import Verif.Neu.Core
import Verif.Neu.Solve
import Verif.Neu.Props
import Verif.Neu.Ex
import Verif.Ell.Model
import Verif.Ell.Algebra
import Verif.Ell.Forms
import Verif.Ell.Lumped
import Verif.Ell.Props
import Verif.Nrm.Model
import Verif.Nrm.Core
import Verif.Nrm.Props
import Verif.Hist.Model
import Verif.Hist.Lemmas
import Verif.Hist.Props
import Verif.Hist.C91
import Verif.Hist.Solve
import Verif.Hist.Witness
import Verif.Crash.Assemble
import Verif.Crash.Balance
import Verif.Crash.Root
import Verif.Crash.Refine
import Verif.Crash.Again
import Verif.Crash.Repeat
import Verif.Crash.Split
import Verif.Quad.Locate
import Verif.Forest.VertexFlags
import Verif.Arr.Constant
import Verif.Store.Model
import Verif.Store.Props
import Verif.Store.Ex
import Verif.Forest.Children
import Verif.Max.Core
import Verif.Max.Props
import Verif.Max.Ex
import Verif.Max2.Core
import Verif.Max2.Props
import Verif.Max2.Ex
import Verif.Super.Core
import Verif.Super.Props
import Verif.Super.Ex
import Verif.Motion.Core
import Verif.Motion.Props
import Verif.Motion.Ex
import Verif.Coef.Model
import Verif.Coef.Props
import Verif.Coef.BasisEval
import Verif.Coef.Assemble
import Verif.Coef.Measure
import Verif.Forest.Irregular
