"""usage: addnote.py C01 proved "note" """
import sys,json
p='/verif/tools/notes.json'
n=json.load(open(p)); n[sys.argv[1]]={"status":sys.argv[2],"note":sys.argv[3]}
json.dump(n,open(p,'w'),indent=0)
