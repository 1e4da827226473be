lean/.lake/
lean/build/
__pycache__/
lake-manifest.json
